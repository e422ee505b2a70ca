import Verif.Transfer.RunLemmas
import Verif.Transfer.TimesThms

/-! # Helper lemmas for the composition theorems -/

namespace Verif.Transfer
open Verif

section
variable {K : Type} [Field K] {c f : Nat}

/-- Gradients are determined by their pairings. -/
theorem grads_ext (n : Nat) (h h' : Grads K f c) (hl : h.length = n) (hl' : h'.length = n)
    (hp : ∀ (y : Pulse K c) (φ : Fin f), y.length = n → pairing h y φ = pairing h' y φ) : h = h' := by
  apply List.ext_getElem (by rw [hl, hl'])
  intro i hi hi'
  funext φ k
  let y : Pulse K c := (List.range n).map fun j l => if j = i ∧ l = k then 1 else 0
  have hy : y.length = n := by simp [y]
  have key : ∀ g : Grads K f c, g.length = n → pairing g y φ = rowAt g i φ k := by
    intro g hg
    rw [pairing_eq_sum g y φ n (Or.inl hg.le), Finset.sum_eq_single i]
    · rw [Finset.sum_eq_single k]
      · rw [rowAt_map_range _ _ _ (by omega)]; simp
      · intro l _ hlk
        rw [rowAt_map_range _ _ _ (by omega)]; simp [hlk]
      · simp
    · intro j hj hji
      apply Finset.sum_eq_zero
      intro l _
      rw [rowAt_map_range _ _ _ (Finset.mem_range.mp hj)]; simp [hji]
    · intro hni; simp at hni; omega
  have := hp y φ hy
  rw [key h hl, key h' hl'] at this
  simpa [rowAt, List.getD_eq_getElem?_getD, hi, hi'] using this

theorem range_map_getD {α β : Type} (d : α) (F : α → β) (l : List α) :
    (List.range l.length).map (fun i => F (l.getD i d)) = l.map F := by
  apply List.ext_getElem (by simp)
  intro i h1 h2
  simp only [List.length_map, List.length_range] at h1 h2
  simp [List.getElem?_eq_getElem h2]

theorem Tensor.applyAdj_length {T : Tensor K c} {g h : Grads K f c} (hh : T.applyAdj g = .ok h) :
    h.length = T.ny ∧ (g.length = T.nx ∨ T.nx = 1 ∨ g.length = 1) := by
  unfold Tensor.applyAdj at hh
  split at hh
  · simp only [Except.ok.injEq] at hh; subst hh; simp_all
  · split at hh
    · simp only [Except.ok.injEq] at hh; subst hh; simp_all
    · split at hh
      · simp only [Except.ok.injEq] at hh; subst hh; simp_all
      · simp at hh

/-- Whether a matrix can be applied depends on the number of rows only. -/
theorem Tensor.apply_same_length {T : Tensor K c} {y y' x : Pulse K c} (h : T.apply y = .ok x) (hl : y'.length = y.length) :
    ∃ x', T.apply y' = .ok x' ∧ x'.length = x.length := by
  have h' := (TF.Tensor.apply_length h).1
  unfold Tensor.apply at h ⊢
  rw [hl]
  by_cases e1 : y.length = T.ny
  · rw [if_pos e1]; exact ⟨_, rfl, by simp [h']⟩
  · rw [if_neg e1] at h ⊢
    by_cases e2 : T.ny = 1
    · rw [if_pos e2]; exact ⟨_, rfl, by simp [h']⟩
    · rw [if_neg e2] at h ⊢
      by_cases e3 : y.length = 1
      · rw [if_pos e3]; exact ⟨_, rfl, by simp [h']⟩
      · rw [if_neg e3] at h; simp at h

@[inherit_doc Tensor.apply_same_length]
theorem Tensor.applyAdj_same_length {f' : Nat} {T : Tensor K c} {g h : Grads K f c} {g' : Grads K f' c} (hh : T.applyAdj g = .ok h)
    (hl : g'.length = g.length) : ∃ h', T.applyAdj g' = .ok h' ∧ h'.length = h.length := by
  have h' := (Tensor.applyAdj_length hh).1
  unfold Tensor.applyAdj at hh ⊢
  rw [hl]
  by_cases e1 : g.length = T.nx
  · rw [if_pos e1]; exact ⟨_, rfl, by simp [h']⟩
  · rw [if_neg e1] at hh ⊢
    by_cases e2 : T.nx = 1
    · rw [if_pos e2]; exact ⟨_, rfl, by simp [h']⟩
    · rw [if_neg e2] at hh ⊢
      by_cases e3 : g.length = 1
      · rw [if_pos e3]; exact ⟨_, rfl, by simp [h']⟩
      · rw [if_neg e3] at hh; simp at hh

theorem oversamplingTensor_shape (b : Base K) (T : Tensor K c) (hT : oversamplingTensor c b = .ok T) :
    ∃ ps pe, b.numPadding = .ok (ps, pe) ∧ T.nx = ps + b.oversampling * b.numY + pe ∧ T.ny = b.numY := by
  unfold oversamplingTensor at hT
  obtain ⟨⟨ps, pe⟩, hp, hT⟩ := TF.bind_ok hT
  simp only [pure, Except.pure, Except.ok.injEq] at hT
  subst hT
  exact ⟨ps, pe, hp, by simp [Tensor.ofRows, npZeros, npEye]; omega, rfl⟩

/-- The oversampling matrix computes the direct oversampling. -/
theorem oversamplingTensor_apply (b : Base K) (T : Tensor K c) (hT : oversamplingTensor c b = .ok T)
    (y : Pulse K c) (hy : y.length = b.numY) : T.apply y = oversamplingApply b y := by
  unfold oversamplingTensor at hT
  obtain ⟨⟨ps, pe⟩, hp, hT⟩ := TF.bind_ok hT
  simp only [pure, Except.pure, Except.ok.injEq] at hT
  subst hT
  unfold Tensor.apply oversamplingApply
  rw [hp]
  simp only [Tensor.ofRows, hy, if_true, bind, Except.bind, pure, Except.pure, Except.ok.injEq]
  let F : List K → Row K c := fun row k => ∑ j ∈ Finset.range b.numY, row.getD j 0 * rowAt y j k
  have hF0 : F (List.replicate b.numY 0) = 0 := by
    funext k
    apply Finset.sum_eq_zero
    intro j hj
    have : j < b.numY := Finset.mem_range.mp hj
    simp [this]
  have hFe : (npEye K b.numY).map F = y := by
    apply List.ext_getElem
    · simp [npEye, hy]
    · intro i h1 h2
      simp only [npEye, List.map_map, List.getElem_map, List.getElem_range, Function.comp_apply]
      funext k
      simp only [F]
      rw [Finset.sum_eq_single i]
      · have : i < b.numY := by omega
        simp [this, rowAt, h2]
      · intro j hj hji
        have : j < b.numY := Finset.mem_range.mp hj
        simp [this, Ne.symm hji]
      · intro hn; simp at hn; omega
  have := range_map_getD [] F (npZeros K ps b.numY ++ npRepeat b.oversampling (npEye K b.numY)
    ++ npZeros K pe b.numY)
  simp only [F] at this
  rw [this]
  change List.map F _ = _
  rw [List.map_append, List.map_append, npZeros, npZeros, List.map_replicate, List.map_replicate, hF0,
    map_npRepeat, hFe]

end

namespace TF
variable {K : Type} [Field K]

/-- Facts about the base class `set_times` used below. -/
theorem setTimes_base {b b' : Base K} {ys : List K} (h : b.setTimes ys = .ok b') :
    b'.bound = b.bound ∧ b'.oversampling = b.oversampling := by
  obtain ⟨bound, os, ny, yt, nx, xt⟩ := b
  unfold Base.setTimes at h
  rcases bound with _ | ⟨code, k⟩
  · simp only [Except.ok.injEq] at h; subst h; simp
  · cases code <;> simp only [] at h <;> try split at h
    all_goals
      first
        | (simp only [Except.ok.injEq] at h; subst h; simp)
        | simp at h

/-- Every object that got its times reports the grid it was given and a consistent refined grid. -/
theorem setTimes_grid : ∀ {c : Nat} (t t' : TF K c) (ys : List K), t.setTimes ys = .ok t' →
    t'.base.yTimes = some ys ∧ t'.base.numY = ys.length ∧
      ∃ x, t'.base.xTimes = some x ∧ x.length = t'.base.numX := by
  intro c t
  induction t with
  | identity b | oversampling b | matrix b o m ch =>
    intro t' ys h
    simp only [setTimes] at h
    obtain ⟨b', hb, h⟩ := bind_ok h
    simp only [pure, Except.pure, Except.ok.injEq] at h
    subst h
    obtain ⟨x, ps, pe, hx, hy, hn, -, -, hl, -⟩ := c01_grid_length b b' ys hb
    exact ⟨hy, hn, x, hx, hl⟩
  | concat b t₁ t₂ ih₁ ih₂ =>
    intro t' ys h
    simp only [setTimes] at h
    obtain ⟨t₁', h₁, h⟩ := bind_ok h
    split at h
    · simp at h
    · rename_i x hx
      obtain ⟨t₂', h₂, h⟩ := bind_ok h
      simp only [pure, Except.pure, Except.ok.injEq] at h
      subst h
      obtain ⟨a, b', -⟩ := ih₁ _ _ h₁
      obtain ⟨-, -, x', hx', hl⟩ := ih₂ _ _ h₂
      exact ⟨a, b', x', hx', hl⟩
  | parallel b t₁ t₂ ih₁ ih₂ =>
    intro t' ys h
    simp only [setTimes] at h
    obtain ⟨t₁', h₁, h⟩ := bind_ok h
    obtain ⟨t₂', h₂, h⟩ := bind_ok h
    simp only [pure, Except.pure, Except.ok.injEq] at h
    subst h
    exact ih₁ _ _ h₁

theorem setTimes_concat {c : Nat} {b : Base K} {t₁ t₂ t : TF K c} {ys : List K}
    (h : (concat b t₁ t₂).setTimes ys = .ok t) :
    ∃ t₁' t₂' x, t₁.setTimes ys = .ok t₁' ∧ t₁'.base.xTimes = some x ∧ t₂.setTimes x = .ok t₂' ∧
      t = concat (copyTimes b t₁'.base t₂'.base) t₁' t₂' := by
  simp only [setTimes] at h
  obtain ⟨t₁', h₁, h⟩ := bind_ok h
  split at h
  · simp at h
  · rename_i x hx
    obtain ⟨t₂', h₂, h⟩ := bind_ok h
    simp only [pure, Except.pure, Except.ok.injEq] at h
    exact ⟨t₁', t₂', x, h₁, hx, h₂, h.symm⟩

theorem setTimes_parallel {c₁ c₂ : Nat} {b : Base K} {t₁ : TF K c₁} {t₂ : TF K c₂} {t : TF K (c₁ + c₂)}
    {ys : List K} (h : (parallel b t₁ t₂).setTimes ys = .ok t) :
    ∃ t₁' t₂', t₁.setTimes ys = .ok t₁' ∧ t₂.setTimes ys = .ok t₂' ∧
      t = parallel (copyTimes b t₁'.base t₁'.base) t₁' t₂' := by
  simp only [setTimes] at h
  obtain ⟨t₁', h₁, h⟩ := bind_ok h
  obtain ⟨t₂', h₂, h⟩ := bind_ok h
  simp only [pure, Except.pure, Except.ok.injEq] at h
  exact ⟨t₁', t₂', h₁, h₂, h.symm⟩

theorem checkRows_of {c : Nat} {b : Base K} {ys : List K} {y : Pulse K c} (h : b.yTimes = some ys)
    (hy : y.length = b.numY) : checkRows b y = .ok () := by
  simp [checkRows, h, hy]

/-- A matrix class whose matrix fits the grid. -/
def GoodBuild {c : Nat} (build : Base K → Except PyErr (Tensor K c)) : Prop :=
  ∀ (b b' : Base K) (ys : List K), b.setTimes ys = .ok b' →
    ∃ T, build b' = .ok T ∧ T.nx = b'.numX ∧ T.ny = b'.numY

/-- Objects as they leave the constructors: no cached matrix yet, `IdentityTF` without oversampling or
padding, matrices that fit the grid, and parallel parts that produce the same number of steps. -/
def Usable : {c : Nat} → TF K c → Prop
  | _, identity b => b.bound = none ∧ b.oversampling = 1
  | _, oversampling _ => True
  | _, matrix _ _ m ch => ch = none ∧ GoodBuild m
  | _, concat _ t₁ t₂ => Usable t₁ ∧ Usable t₂
  | _, parallel _ t₁ t₂ => Usable t₁ ∧ Usable t₂ ∧
      ∀ ys t₁' t₂', t₁.setTimes ys = .ok t₁' → t₂.setTimes ys = .ok t₂' →
        t₁'.base.numX = t₂'.base.numX

/-- Every matrix in the object, stored or still to be built, has the shape of the object's present grid.  False for a matrix
that was stored before the times were changed (C10). -/
def Fits : {c : Nat} → TF K c → Prop
  | _, identity _ => True
  | _, oversampling _ => True
  | _, matrix b _ m ch => ∀ T, getMatrix b m ch = .ok T → T.nx = b.numX ∧ T.ny = b.numY
  | _, concat _ t₁ t₂ => Fits t₁ ∧ Fits t₂
  | _, parallel _ t₁ t₂ => Fits t₁ ∧ Fits t₂

/-- Objects from the constructors fit once their times are set. -/
theorem usable_fits : ∀ {c : Nat} (t t' : TF K c) (ys : List K), Usable t → t.setTimes ys = .ok t' → Fits t' := by
  intro c t
  induction t with
  | identity b =>
    intro t' ys _ h
    simp only [TF.setTimes] at h
    obtain ⟨b', -, h⟩ := bind_ok h
    simp only [pure, Except.pure, Except.ok.injEq] at h
    subst h; exact True.intro
  | oversampling b =>
    intro t' ys _ h
    simp only [TF.setTimes] at h
    obtain ⟨b', -, h⟩ := bind_ok h
    simp only [pure, Except.pure, Except.ok.injEq] at h
    subst h; exact True.intro
  | matrix b o m ch =>
    intro t' ys hu h
    obtain ⟨rfl, hm⟩ := hu
    simp only [TF.setTimes] at h
    obtain ⟨b', hb, h⟩ := bind_ok h
    simp only [pure, Except.pure, Except.ok.injEq] at h
    subst h
    obtain ⟨T, hT, h1, h2⟩ := hm b b' ys hb
    intro T' hT'
    simp only [getMatrix, hT, Except.ok.injEq] at hT'
    subst hT'
    exact ⟨h1, h2⟩
  | concat b t₁ t₂ ih₁ ih₂ =>
    intro t' ys hu h
    obtain ⟨t₁', t₂', x, h₁, hx, h₂, rfl⟩ := setTimes_concat h
    exact ⟨ih₁ _ _ hu.1 h₁, ih₂ _ _ hu.2 h₂⟩
  | parallel b t₁ t₂ ih₁ ih₂ =>
    intro t' ys hu h
    obtain ⟨t₁', t₂', h₁, h₂, rfl⟩ := setTimes_parallel h
    exact ⟨ih₁ _ _ hu.1 h₁, ih₂ _ _ hu.2.1 h₂⟩

/-- A call stores the matrix it used, and nothing else: the object still fits. -/
theorem call_fits : ∀ {c : Nat} (t t' : TF K c) (y x : Pulse K c), Fits t → t.call y = .ok (t', x) → Fits t' := by
  intro c t
  induction t with
  | identity b =>
    intro t' y x _ h
    simp only [call, Except.ok.injEq, Prod.mk.injEq] at h
    rw [← h.1]; exact True.intro
  | oversampling b =>
    intro t' y x _ h
    simp only [call] at h
    obtain ⟨_, -, h⟩ := bind_ok h
    obtain ⟨_, -, h⟩ := bind_ok h
    simp only [pure, Except.pure, Except.ok.injEq, Prod.mk.injEq] at h
    rw [← h.1]; exact True.intro
  | matrix b o m ch =>
    intro t' y x hf h
    simp only [call] at h
    obtain ⟨_, -, h⟩ := bind_ok h
    obtain ⟨T, hT, h⟩ := bind_ok h
    obtain ⟨_, -, h⟩ := bind_ok h
    simp only [pure, Except.pure, Except.ok.injEq, Prod.mk.injEq] at h
    rw [← h.1]
    intro T' hT'
    simp only [getMatrix, Except.ok.injEq] at hT'
    subst hT'
    exact hf T hT
  | concat b t₁ t₂ ih₁ ih₂ =>
    intro t' y x hf h
    simp only [call] at h
    obtain ⟨_, -, h⟩ := bind_ok h
    obtain ⟨p, hp, h⟩ := bind_ok h
    obtain ⟨q, hq, h⟩ := bind_ok h
    simp only [pure, Except.pure, Except.ok.injEq, Prod.mk.injEq] at h
    rw [← h.1]
    exact ⟨ih₁ _ _ _ hf.1 hp, ih₂ _ _ _ hf.2 hq⟩
  | parallel b t₁ t₂ ih₁ ih₂ =>
    intro t' y x hf h
    simp only [call] at h
    obtain ⟨_, -, h⟩ := bind_ok h
    obtain ⟨p, hp, h⟩ := bind_ok h
    obtain ⟨q, hq, h⟩ := bind_ok h
    obtain ⟨_, -, h⟩ := bind_ok h
    simp only [pure, Except.pure, Except.ok.injEq, Prod.mk.injEq] at h
    rw [← h.1]
    exact ⟨ih₁ _ _ _ hf.1 hp, ih₂ _ _ _ hf.2 hq⟩

theorem goodBuild_oversampling (c : Nat) : GoodBuild (K := K) (oversamplingTensor c) := by
  intro b b' ys h
  obtain ⟨x, ps, pe, -, -, hn, -, hp, -, hX⟩ := c01_grid_length b b' ys h
  have hT : ∃ T, oversamplingTensor c b' = .ok T := by
    unfold oversamplingTensor; rw [hp]; exact ⟨_, rfl⟩
  obtain ⟨T, hT⟩ := hT
  obtain ⟨ps', pe', hp', h1, h2⟩ := oversamplingTensor_shape b' T hT
  rw [hp] at hp'
  simp only [Except.ok.injEq, Prod.mk.injEq] at hp'
  refine ⟨T, hT, ?_, h2⟩
  rw [h1, hX, (setTimes_base h).2, hn, hp'.1, hp'.2]

end TF
end Verif.Transfer
