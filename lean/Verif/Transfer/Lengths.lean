import Verif.Transfer.ComposeThms

/-! # Whether a call succeeds depends on the number of rows only (helper lemmas) -/

namespace Verif.Transfer
open Verif TF

variable {K : Type} [Field K]

theorem checkRows_len {c : Nat} {b : Base K} {y y' : Pulse K c} (h : y'.length = y.length) :
    checkRows b y' = checkRows b y := by
  unfold checkRows; rw [h]

/-- A transfer function that accepts a pulse accepts every pulse of the same length. -/
theorem run_len : ∀ {c : Nat} (t : TF K c) (y y' x : Pulse K c), y'.length = y.length → t.run y = .ok x →
    ∃ x', t.run y' = .ok x' ∧ x'.length = x.length := by
  intro c t
  induction t with
  | identity b =>
    intro y y' x hl h
    simp only [run_identity, Except.ok.injEq] at h
    subst h
    exact ⟨y', rfl, hl⟩
  | oversampling b =>
    intro y y' x hl h
    rw [run_oversampling] at h ⊢
    obtain ⟨u, hc, h⟩ := bind_ok h
    rw [checkRows_len hl, hc]
    unfold oversamplingApply at h ⊢
    obtain ⟨p, hp, h⟩ := bind_ok h
    simp only [pure, Except.pure, Except.ok.injEq] at h
    subst h
    rw [hp]
    exact ⟨_, rfl, by simp [hl]⟩
  | matrix b o m ch =>
    intro y y' x hl h
    rw [run_matrix] at h ⊢
    obtain ⟨u, hc, h⟩ := bind_ok h
    obtain ⟨T, hT, h⟩ := bind_ok h
    rw [checkRows_len hl, hc, hT]
    obtain ⟨z, hz, h⟩ := map_ok h
    subst h
    obtain ⟨w, hw, hwl⟩ := Tensor.apply_same_length hz hl
    exact ⟨addOffset o w, by simp [bind, Except.bind, hw, Except.map], by
      rw [addOffset_length, addOffset_length, hwl]⟩
  | concat b t₁ t₂ ih₁ ih₂ =>
    intro y y' x hl h
    rw [run_concat] at h ⊢
    obtain ⟨u, hc, h⟩ := bind_ok h
    obtain ⟨z, hz, h⟩ := bind_ok h
    obtain ⟨z', hz', l1⟩ := ih₁ y y' z hl hz
    obtain ⟨x', hx', l2⟩ := ih₂ z z' x l1 h
    rw [checkRows_len hl, hc, hz']
    exact ⟨x', hx', l2⟩
  | parallel b t₁ t₂ ih₁ ih₂ =>
    intro y y' x hl h
    rw [run_parallel] at h ⊢
    obtain ⟨u, hc, h⟩ := bind_ok h
    obtain ⟨z, hz, h⟩ := bind_ok h
    obtain ⟨w, hw, h⟩ := bind_ok h
    obtain ⟨z', hz', l1⟩ := ih₁ _ (leftCols y') z (by simp [leftCols, hl]) hz
    obtain ⟨w', hw', l2⟩ := ih₂ _ (rightCols y') w (by simp [rightCols, hl]) hw
    rw [checkRows_len hl, hc]
    simp only [bind, Except.bind, hz', hw']
    unfold hcat at h ⊢
    split at h
    · rename_i e
      simp only [Except.ok.injEq] at h
      subst h
      rw [if_pos (by rw [l1, l2, e])]
      exact ⟨_, rfl, by simp [l1, l2]⟩
    · simp at h

/-- A transfer function that accepts a gradient array accepts every gradient array with as many time steps. -/
theorem back_len {f f' : Nat} : ∀ {c : Nat} (t : TF K c) (g h : Grads K f c) (g' : Grads K f' c), g'.length = g.length →
    t.back g = .ok h → ∃ h', t.back g' = .ok h' ∧ h'.length = h.length := by
  intro c t
  induction t with
  | identity b =>
    intro g h g' hl hb
    simp only [back_identity, Except.ok.injEq] at hb
    subst hb
    exact ⟨g', rfl, hl⟩
  | oversampling b =>
    intro g h g' hl hb
    rw [back_oversampling] at hb ⊢
    unfold oversamplingAdj at hb ⊢
    rw [hl]
    split at hb
    · rename_i e
      rw [if_pos e]
      obtain ⟨⟨ps, pe⟩, hp, hb⟩ := bind_ok hb
      simp only [bind, Except.bind, hp]
      simp only at hb
      have hcl : (if 0 < pe then sliceNeg ps pe g' else g'.drop ps).length =
          (if 0 < pe then sliceNeg ps pe g else g.drop ps).length := by
        split <;> simp [sliceNeg, hl]
      generalize (if 0 < pe then sliceNeg ps pe g' else g'.drop ps) = cr' at hcl ⊢
      generalize (if 0 < pe then sliceNeg ps pe g else g.drop ps) = cr at hcl hb
      rw [hcl]
      split at hb
      · rename_i e2
        rw [if_pos e2]
        simp only [pure, Except.pure, Except.ok.injEq] at hb
        subst hb
        exact ⟨_, rfl, by simp⟩
      · simp at hb
    · simp at hb
  | matrix b o m ch =>
    intro g h g' hl hb
    rw [back_matrix] at hb ⊢
    rw [hl]
    split at hb
    · rename_i e
      rw [if_pos e]
      obtain ⟨T, hT, hb⟩ := bind_ok hb
      rw [hT]
      exact Tensor.applyAdj_same_length hb hl
    · simp at hb
  | concat b t₁ t₂ ih₁ ih₂ =>
    intro g h g' hl hb
    rw [back_concat] at hb ⊢
    obtain ⟨z, hz, hb⟩ := bind_ok hb
    obtain ⟨z', hz', l1⟩ := ih₂ g z g' hl hz
    obtain ⟨h', hh', l2⟩ := ih₁ z h z' l1 hb
    rw [hz']
    exact ⟨h', hh', l2⟩
  | parallel b t₁ t₂ ih₁ ih₂ =>
    intro g h g' hl hb
    rw [back_parallel] at hb ⊢
    obtain ⟨z, hz, hb⟩ := bind_ok hb
    obtain ⟨w, hw, hb⟩ := bind_ok hb
    obtain ⟨z', hz', l1⟩ := ih₁ _ z (leftGrads g') (by simp [leftGrads, hl]) hz
    obtain ⟨w', hw', l2⟩ := ih₂ _ w (rightGrads g') (by simp [rightGrads, hl]) hw
    simp only [bind, Except.bind, hz', hw']
    unfold hcatG at hb ⊢
    split at hb
    · rename_i e
      simp only [Except.ok.injEq] at hb
      subst hb
      rw [if_pos (by rw [l1, l2, e])]
      exact ⟨_, rfl, by simp [l1, l2]⟩
    · simp at hb

/-- The gradient handed back has one row per row of the pulse. -/
theorem run_back_len {f : Nat} : ∀ {c : Nat} (t : TF K c) (y x : Pulse K c) (g h : Grads K f c), Fits t → t.run y = .ok x →
    g.length = x.length → t.back g = .ok h → h.length = y.length := by
  intro c t
  induction t with
  | identity b =>
    intro y x g h hf hr hl hb
    simp only [run_identity, back_identity, Except.ok.injEq] at hr hb
    subst hr; subst hb
    exact hl
  | oversampling b =>
    intro y x g h hf hr hl hb
    rw [run_oversampling] at hr
    rw [back_oversampling] at hb
    obtain ⟨u, hc, hr⟩ := bind_ok hr
    rw [checkRows_ok hc]
    unfold oversamplingAdj at hb
    split at hb
    · obtain ⟨⟨ps, pe⟩, hp, hb⟩ := bind_ok hb
      simp only at hb
      generalize (if 0 < pe then sliceNeg ps pe g else g.drop ps) = cr at hb
      split at hb
      · simp only [pure, Except.pure, Except.ok.injEq] at hb
        subst hb
        simp
      · simp at hb
    · simp at hb
  | matrix b o m ch =>
    intro y x g h hf hr hl hb
    rw [run_matrix] at hr
    rw [back_matrix] at hb
    obtain ⟨u, hc, hr⟩ := bind_ok hr
    obtain ⟨T, hT, hr⟩ := bind_ok hr
    obtain ⟨z, hz, hr⟩ := map_ok hr
    split at hb
    · rw [hT] at hb
      simp only [bind, Except.bind] at hb
      rw [(Tensor.applyAdj_length hb).1, (hf T hT).2, checkRows_ok hc]
    · simp at hb
  | concat b t₁ t₂ ih₁ ih₂ =>
    intro y x g h hf hr hl hb
    rw [run_concat] at hr
    rw [back_concat] at hb
    obtain ⟨u, hc, hr⟩ := bind_ok hr
    obtain ⟨z, hz, hr⟩ := bind_ok hr
    obtain ⟨w, hw, hb⟩ := bind_ok hb
    exact ih₁ y z w h hf.1 hz (ih₂ z x g w hf.2 hr hl hw) hb
  | parallel b t₁ t₂ ih₁ ih₂ =>
    intro y x g h hf hr hl hb
    rw [run_parallel] at hr
    rw [back_parallel] at hb
    obtain ⟨u, hc, hr⟩ := bind_ok hr
    obtain ⟨z, hz, hr⟩ := bind_ok hr
    obtain ⟨w, hw, hr⟩ := bind_ok hr
    obtain ⟨z', hz', hb⟩ := bind_ok hb
    obtain ⟨w', hw', hb⟩ := bind_ok hb
    unfold hcat at hr
    unfold hcatG at hb
    split at hr
    · rename_i e
      split at hb
      · rename_i e2
        simp only [Except.ok.injEq] at hr hb
        subst hr; subst hb
        simp only [List.length_zipWith, e, min_self] at hl
        have h1 := ih₁ _ z _ z' hf.1 hz (by simp [leftGrads, hl, e]) hz'
        simp [e2 ▸ h1, ← e2, h1, leftCols]
      · simp at hb
    · simp at hr

end Verif.Transfer
