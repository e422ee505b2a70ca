import Verif.Transfer.ComposeLemmas

/-! # Property theorems C04-C09: what transfer functions compute, and that gradients are adjoint -/

namespace Verif.Transfer
open Verif TF

section
variable {K : Type} [Field K] {c c₁ c₂ f : Nat}

/-! ## C04 -/

/-- **C04** An `OversamplingTF` with times accepts exactly the pulses with one row per input step; the
output has `num_x` rows, row `pad_start + i * oversampling + j` is input row `i`, and every padding row is
zero. -/
theorem c04_oversampling_rows (b : Base K) (t' : TF K c) (ys : List K) (ps pe : Nat) (y : Pulse K c)
    (h : (TF.oversampling b : TF K c).setTimes ys = .ok t')
    (hp : specPadding b.bound b.oversampling = some (ps, pe)) (hy : y.length = ys.length) :
    ∃ x, t'.run y = .ok x ∧ x.length = t'.base.numX ∧
      (∀ i j, i < y.length → j < b.oversampling → x[ps + i * b.oversampling + j]? = y[i]?) ∧
      (∀ i < ps, x[i]? = some 0) ∧
      (∀ i < pe, x[ps + b.oversampling * y.length + i]? = some 0) := by
  simp only [TF.setTimes] at h
  obtain ⟨b', hb, h⟩ := bind_ok h
  simp only [pure, Except.pure, Except.ok.injEq] at h
  subst h
  obtain ⟨x', ps', pe', hx, hyt, hn, hs, hpad, hl, hX⟩ := c01_grid_length b b' ys hb
  rw [hp] at hs
  simp only [Option.some.injEq, Prod.mk.injEq] at hs
  obtain ⟨rfl, rfl⟩ := hs
  have hos := (setTimes_base hb).2
  refine ⟨List.replicate ps 0 ++ npRepeat b'.oversampling y ++ List.replicate pe 0, ?_, ?_, ?_, ?_, ?_⟩
  · rw [run_oversampling, checkRows_of hyt (by rw [hn, hy])]
    simp only [bind, Except.bind, oversamplingApply, hpad, pure, Except.pure]
  · simp only [List.length_append, List.length_replicate, length_npRepeat, TF.base]
    rw [hX, hos, hy]
  · intro i j hi hj
    rw [List.append_assoc, Nat.add_assoc,
      List.getElem?_append_right (by simp), List.getElem?_append_left]
    · simp only [List.length_replicate, Nat.add_sub_cancel_left]
      rw [hos, getElem?_npRepeat _ _ _ hj]
    · simp only [List.length_replicate, Nat.add_sub_cancel_left, length_npRepeat, hos]
      calc i * b.oversampling + j < i * b.oversampling + b.oversampling := by omega
        _ = b.oversampling * (i + 1) := by ring
        _ ≤ b.oversampling * y.length := Nat.mul_le_mul_left _ hi
  · intro i hi
    rw [List.append_assoc, List.getElem?_append_left (by simpa using hi)]
    simp [hi]
  · intro i hi
    rw [List.getElem?_append_right (by simp [hos])]
    simp [hos, hi]

/-- **C04** A pulse with a wrong number of rows is rejected. -/
theorem c04_wrong_rows (b : Base K) (t' : TF K c) (ys : List K) (y : Pulse K c)
    (h : (TF.oversampling b : TF K c).setTimes ys = .ok t') (hy : y.length ≠ ys.length) :
    t'.run y = .error .indexError := by
  obtain ⟨hyt, hn, -⟩ := setTimes_grid _ _ _ h
  simp only [TF.setTimes] at h
  obtain ⟨b', hb, h⟩ := bind_ok h
  simp only [pure, Except.pure, Except.ok.injEq] at h
  subst h
  simp only [TF.base] at hyt hn
  rw [run_oversampling]
  simp [checkRows, hyt, hn, hy, bind, Except.bind]

/-- Non-vacuity of C04: oversampling 2, bound `('n', 1)`, two steps. -/
example : ∃ t', (TF.oversampling (Base.init ℚ (some ⟨.n, 1⟩) 2) : TF ℚ 1).setTimes [1, 1] = .ok t' ∧
    specPadding (some ⟨.n, 1⟩) 2 = some (1, 1) := ⟨_, rfl, rfl⟩

/-! ## Adjointness for every transfer function object -/

/-- The general adjointness statement behind C05, C06, C08 and C09: for every object (any nesting of
identity, oversampling, matrix, concatenated and parallel transfer functions, in any state whose matrices
fit the grid), the change of
the output along `g` is the change of the input along `gradient_chain_rule(g)`. -/
theorem adjoint_all : ∀ {c : Nat} (t : TF K c) (y y' x x' : Pulse K c) (g h : Grads K f c) (φ : Fin f),
    Fits t → y.length = y'.length → t.run y = .ok x → t.run y' = .ok x' → t.back g = .ok h →
    pairing g x φ - pairing g x' φ = pairing h y φ - pairing h y' φ ∧ x.length = x'.length := by
  intro c t
  induction t with
  | identity b =>
    intro y y' x x' g h φ hf hl h1 h2 h3
    simp only [run_identity, back_identity, Except.ok.injEq] at h1 h2 h3
    subst h1; subst h2; subst h3
    exact ⟨rfl, hl⟩
  | oversampling b =>
    intro y y' x x' g h φ hf hl h1 h2 h3
    rw [run_oversampling] at h1 h2
    rw [back_oversampling] at h3
    obtain ⟨u, hc, h1⟩ := bind_ok h1
    obtain ⟨u', hc', h2⟩ := bind_ok h2
    rw [oversampling_adjoint b y x g h φ (checkRows_ok hc) h1 h3,
      oversampling_adjoint b y' x' g h φ (checkRows_ok hc') h2 h3]
    refine ⟨rfl, ?_⟩
    unfold oversamplingApply at h1 h2
    obtain ⟨p, hp, h1⟩ := bind_ok h1
    obtain ⟨p', hp', h2⟩ := bind_ok h2
    rw [hp] at hp'
    simp only [Except.ok.injEq] at hp'
    subst hp'
    simp only [pure, Except.pure, Except.ok.injEq] at h1 h2
    subst h1; subst h2
    simp [hl]
  | matrix b o m ch =>
    intro y y' x x' g h φ hf hl h1 h2 h3
    rw [run_matrix] at h1 h2
    rw [back_matrix] at h3
    obtain ⟨u, hc, h1⟩ := bind_ok h1
    obtain ⟨u', hc', h2⟩ := bind_ok h2
    obtain ⟨T, hT, h1⟩ := bind_ok h1
    obtain ⟨T', hT', h2⟩ := bind_ok h2
    rw [hT] at hT'
    simp only [Except.ok.injEq] at hT'
    subst hT'
    obtain ⟨z, hz, h1⟩ := map_ok h1
    obtain ⟨z', hz', h2⟩ := map_ok h2
    subst h1; subst h2
    split at h3
    · rename_i hgl
      rw [hT] at h3
      simp only [bind, Except.bind] at h3
      obtain ⟨f1, f2⟩ := hf T hT
      have hzl : z.length = z'.length := by
        rw [(Tensor.apply_length hz).1, (Tensor.apply_length hz').1]
      rw [pairing_addOffset o g z z' hzl, tensor_adjoint T y z g h φ (by rw [f2, checkRows_ok hc]) (by rw [f1, hgl]) hz h3,
        tensor_adjoint T y' z' g h φ (by rw [f2, checkRows_ok hc']) (by rw [f1, hgl]) hz' h3]
      refine ⟨rfl, ?_⟩
      simp [addOffset_length, hzl]
    · simp at h3
  | concat b t₁ t₂ ih₁ ih₂ =>
    intro y y' x x' g h φ hf hl h1 h2 h3
    rw [run_concat] at h1 h2
    rw [back_concat] at h3
    obtain ⟨-, -, h1⟩ := bind_ok h1
    obtain ⟨-, -, h2⟩ := bind_ok h2
    obtain ⟨z, hz, h1⟩ := bind_ok h1
    obtain ⟨z', hz', h2⟩ := bind_ok h2
    obtain ⟨g₂, hg₂, h3⟩ := bind_ok h3
    obtain ⟨e1, l1⟩ := ih₁ y y' z z' g₂ h φ hf.1 hl hz hz' h3
    obtain ⟨e2, l2⟩ := ih₂ z z' x x' g g₂ φ hf.2 l1 h1 h2 hg₂
    exact ⟨e2.trans e1, l2⟩
  | parallel b t₁ t₂ ih₁ ih₂ =>
    intro y y' x x' g h φ hf hl h1 h2 h3
    rw [run_parallel] at h1 h2
    rw [back_parallel] at h3
    obtain ⟨-, -, h1⟩ := bind_ok h1
    obtain ⟨-, -, h2⟩ := bind_ok h2
    obtain ⟨z, hz, h1⟩ := bind_ok h1
    obtain ⟨z', hz', h2⟩ := bind_ok h2
    obtain ⟨w, hw, h1⟩ := bind_ok h1
    obtain ⟨w', hw', h2⟩ := bind_ok h2
    obtain ⟨g₁, hg₁, h3⟩ := bind_ok h3
    obtain ⟨g₂, hg₂, h3⟩ := bind_ok h3
    obtain ⟨e1, l1⟩ := ih₁ _ _ _ _ _ _ φ hf.1 (by simp [leftCols, hl]) hz hz' hg₁
    obtain ⟨e2, l2⟩ := ih₂ _ _ _ _ _ _ φ hf.2 (by simp [rightCols, hl]) hw hw' hg₂
    rw [pairing_hcat g _ _ _ h1, pairing_hcat g _ _ _ h2, pairing_hcatG _ _ _ h3,
      pairing_hcatG _ _ _ h3]
    refine ⟨by linear_combination e1 + e2, ?_⟩
    unfold hcat at h1 h2
    split at h1
    · split at h2
      · simp only [Except.ok.injEq] at h1 h2
        subst h1; subst h2
        simp [l1, l2]
      · simp at h2
    · simp at h1

/-! ## C05 -/

/-- **C05** Calling an `OversamplingTF` and then asking the same object for the gradient: the pairings
agree for every cost value. -/
theorem c05_oversampling_adjoint (b : Base K) (t t' : TF K c) (y x : Pulse K c) (g h : Grads K f c)
    (φ : Fin f) (hx : (TF.oversampling b).call y = .ok (t, x)) (hg : t.grad g = .ok (t', h)) :
    pairing g x φ = pairing h y φ := by
  have hs := call_same _ _ _ _ hx
  have h1 : (TF.oversampling b).run y = .ok x := by rw [TF.run, hx]; rfl
  have h3 : (TF.oversampling b).back g = .ok h := by rw [hs.2.2, TF.back, hg]; rfl
  rw [run_oversampling] at h1
  rw [back_oversampling] at h3
  obtain ⟨u, hc, h1⟩ := bind_ok h1
  exact oversampling_adjoint b y x g h φ (checkRows_ok hc) h1 h3

/-- **C05** Once the times are set, the gradient exists for every gradient array with `num_x` rows and has
one row per input step. -/
theorem c05_gradient_shape (b : Base K) (t' : TF K c) (ys : List K) (g : Grads K f c)
    (h : (TF.oversampling b : TF K c).setTimes ys = .ok t') (hg : g.length = t'.base.numX) :
    ∃ h, t'.back g = .ok h ∧ h.length = ys.length := by
  simp only [TF.setTimes] at h
  obtain ⟨b', hb, h⟩ := bind_ok h
  simp only [pure, Except.pure, Except.ok.injEq] at h
  subst h
  obtain ⟨x', ps, pe, hx, hyt, hn, hs, hpad, hl, hX⟩ := c01_grid_length b b' ys hb
  have hos := (setTimes_base hb).2
  simp only [TF.base] at hg
  rw [back_oversampling]
  unfold oversamplingAdj
  rw [if_pos hg, hpad]
  simp only [bind, Except.bind, pure, Except.pure]
  rw [if_pos]
  · exact ⟨_, rfl, by simp [hn]⟩
  · rw [hn, hos, Nat.mul_comm]
    split
    · simp only [sliceNeg, List.length_drop, List.length_take]; omega
    · simp only [List.length_drop]; omega

/-- Non-vacuity of C05: call and gradient succeed together. -/
example : ∃ (x : Pulse ℚ 1) (h : Grads ℚ 1 1),
    (TF.oversampling ⟨none, 2, 2, some [1, 1], 4, none⟩ : TF ℚ 1).run [fun _ => 1, fun _ => 2] = .ok x ∧
    (TF.oversampling ⟨none, 2, 2, some [1, 1], 4, none⟩ : TF ℚ 1).back [fun _ _ => 1, fun _ _ => 2, fun _ _ => 3, fun _ _ => 4] = .ok h ∧
    x.length = 4 ∧ h.length = 2 := ⟨_, _, rfl, rfl, rfl, rfl⟩

/-! ## C06 -/

/-- **C06** A matrix transfer function call is affine, entry by entry, and each output channel only reads
the same input channel. -/
theorem c06_affine (b : Base K) (o m) (T : Tensor K c) (y x : Pulse K c) (i : Nat) (k : Fin c)
    (hf : T.ny = b.numY) (hx : (TF.matrix b o m (some T)).run y = .ok x) (hi : i < T.nx) :
    x.length = T.nx ∧ rowAt x i k = (∑ j ∈ Finset.range y.length, T.val i j k * rowAt y j k) + o.getD 0 := by
  rw [run_matrix] at hx
  obtain ⟨_, hc, hx⟩ := bind_ok hx
  simp only [getMatrix, bind, Except.bind] at hx
  obtain ⟨z, hz, hx⟩ := map_ok hx
  have l1 := (Tensor.apply_length hz).1
  have l2 : y.length = T.ny := by rw [hf, checkRows_ok hc]
  subst hx
  refine ⟨by rw [addOffset_length, l1], ?_⟩
  unfold Tensor.apply at hz
  rw [if_pos l2] at hz
  simp only [Except.ok.injEq] at hz
  subst hz
  cases o with
  | none => simp [addOffset, rowAt, hi, l2]
  | some o => simp [addOffset, rowAt, hi, l2]

/-- **C06** Channel independence of the call. -/
theorem c06_channel_independent (b : Base K) (o m ch) (y y' x x' : Pulse K c) (k : Fin c)
    (hy : (TF.matrix b o m ch).run y = .ok x) (hy' : (TF.matrix b o m ch).run y' = .ok x')
    (heq : ∀ j, rowAt y j k = rowAt y' j k) (i : Nat) : rowAt x i k = rowAt x' i k := by
  rw [run_matrix] at hy hy'
  obtain ⟨_, hc, hy⟩ := bind_ok hy
  obtain ⟨_, hc', hy'⟩ := bind_ok hy'
  have hyl : y'.length = y.length := by rw [checkRows_ok hc, checkRows_ok hc']
  obtain ⟨T, hT, hy⟩ := bind_ok hy
  obtain ⟨T', hT', hy'⟩ := bind_ok hy'
  rw [hT] at hT'
  simp only [Except.ok.injEq] at hT'
  subst hT'
  obtain ⟨z, hz, rfl⟩ := map_ok hy
  obtain ⟨z', hz', rfl⟩ := map_ok hy'
  have hzz : ∀ i, rowAt z i k = rowAt z' i k := by
    intro i
    unfold Tensor.apply at hz hz'
    rw [hyl] at hz'
    by_cases hi : i < T.nx
    · split at hz
      · rename_i e
        rw [if_pos e] at hz'
        simp only [Except.ok.injEq] at hz hz'
        subst hz; subst hz'
        rw [rowAt_map_range _ _ _ hi, rowAt_map_range _ _ _ hi]
        exact Finset.sum_congr rfl fun j _ => by rw [heq j]
      · rename_i e
        rw [if_neg e] at hz'
        split at hz
        · rename_i e
          rw [if_pos e] at hz'
          simp only [Except.ok.injEq] at hz hz'
          subst hz; subst hz'
          rw [rowAt_map_range _ _ _ hi, rowAt_map_range _ _ _ hi]
          exact Finset.sum_congr rfl fun j _ => by rw [heq j]
        · rename_i e
          rw [if_neg e] at hz'
          split at hz
          · rename_i e
            rw [if_pos e] at hz'
            simp only [Except.ok.injEq] at hz hz'
            subst hz; subst hz'
            rw [rowAt_map_range _ _ _ hi, rowAt_map_range _ _ _ hi]
            exact Finset.sum_congr rfl fun j _ => by rw [heq 0]
          · simp at hz
    · have l := (Tensor.apply_length (T := T) (y := y) (by unfold Tensor.apply; exact hz)).1
      have l' := (Tensor.apply_length (T := T) (y := y') (by unfold Tensor.apply; rw [hyl]; exact hz')).1
      simp [rowAt, List.getD_eq_getElem?_getD, List.getElem?_eq_none (show z.length ≤ i by omega),
        List.getElem?_eq_none (show z'.length ≤ i by omega)]
  have hlen : z.length = z'.length := by
    rw [(Tensor.apply_length hz).1, (Tensor.apply_length hz').1]
  cases o with
  | none => exact hzz i
  | some o =>
    simp only [addOffset]
    have := hzz i
    by_cases hi : i < z.length
    · have hi' : i < z'.length := hlen ▸ hi
      simp only [rowAt, List.getD_eq_getElem?_getD, List.getElem?_map,
        List.getElem?_eq_getElem hi, List.getElem?_eq_getElem hi', Option.map_some, Option.getD_some]
        at this ⊢
      rw [this]
    · have hi' : ¬ i < z'.length := hlen ▸ hi
      simp [rowAt, hi, hi']

/-- **C06** The gradient of a matrix transfer function is the adjoint of the linear part. -/
theorem c06_matrix_adjoint (b : Base K) (o m ch) (t t' t'' : TF K c) (y y' x x' : Pulse K c)
    (g h : Grads K f c) (φ : Fin f) (hf : Fits (TF.matrix b o m ch))
    (hx : (TF.matrix b o m ch).call y = .ok (t, x)) (hx' : t.call y' = .ok (t', x'))
    (hg : t'.grad g = .ok (t'', h)) :
    pairing g x φ - pairing g x' φ = pairing h y φ - pairing h y' φ := by
  have s1 := call_same _ _ _ _ hx
  have s2 := s1.trans (call_same _ _ _ _ hx')
  have h1 : (TF.matrix b o m ch).run y = .ok x := by rw [TF.run, hx]; rfl
  have h2 : (TF.matrix b o m ch).run y' = .ok x' := by rw [s1.2.1, TF.run, hx']; rfl
  have h3 : (TF.matrix b o m ch).back g = .ok h := by rw [s2.2.2, TF.back, hg]; rfl
  refine (adjoint_all _ y y' x x' g h φ hf ?_ h1 h2 h3).1
  rw [run_matrix] at h1 h2
  obtain ⟨_, hc, -⟩ := bind_ok h1
  obtain ⟨_, hc', -⟩ := bind_ok h2
  rw [checkRows_ok hc, checkRows_ok hc']

/-- **C06** The gradient splits by channel: entry `k` of the result only depends on entry `k` of the
argument. -/
theorem c06_gradient_channel (T : Tensor K c) (b : Base K) (o m) (g h : Grads K f c) (j : Nat)
    (φ : Fin f) (k : Fin c) (hj : j < T.ny) (hf : T.nx = b.numX) (hh : (TF.matrix b o m (some T)).back g = .ok h) :
    rowAt h j φ k = ∑ i ∈ Finset.range g.length, T.val i j k * rowAt g i φ k := by
  rw [back_matrix] at hh
  split at hh
  · rename_i hl
    simp only [getMatrix, bind, Except.bind] at hh
    rw [← hf] at hl
    unfold Tensor.applyAdj at hh
    rw [if_pos hl] at hh
    simp only [Except.ok.injEq] at hh
    subst hh
    rw [rowAt_map_range _ _ _ hj, hl]
  · simp at hh

/-- Non-vacuity of C06: a `2 × 1` tensor with offset 5. -/
example : ∃ x : Pulse ℚ 1, (TF.matrix ⟨none, 2, 1, some [1], 2, none⟩ (some 5) (fun _ => .error .valueError)
    (some ⟨2, 1, fun i _ _ => i + 1⟩) : TF ℚ 1).run [fun _ => 3] = .ok x ∧ rowAt x 1 0 = 11 := by
  refine ⟨_, rfl, ?_⟩
  norm_num [rowAt, addOffset]

/-! ## C07 -/

/-- **C07** `OversamplingMTF` (default offset 0, fresh matrix) and `OversamplingTF` return the same
transferred pulse or the same error, for every pulse. -/
theorem c07_same_call (b : Base K) (ys : List K) (t₁ t₂ : TF K c)
    (h₁ : (TF.oversampling b).setTimes ys = .ok t₁)
    (h₂ : (TF.matrix b (some 0) (oversamplingTensor c) none).setTimes ys = .ok t₂) (y : Pulse K c) :
    t₂.run y = t₁.run y := by
  simp only [TF.setTimes] at h₁ h₂
  obtain ⟨b', hb, h₁⟩ := bind_ok h₁
  obtain ⟨b'', hb', h₂⟩ := bind_ok h₂
  rw [hb] at hb'
  simp only [Except.ok.injEq] at hb'
  subst hb'
  simp only [pure, Except.pure, Except.ok.injEq] at h₁ h₂
  subst h₁; subst h₂
  obtain ⟨T, hT, -, -⟩ := goodBuild_oversampling c b b' ys hb
  rw [run_matrix, run_oversampling, getMatrix, hT]
  cases hc : checkRows b' y with
  | error e => rfl
  | ok u =>
    simp only [bind, Except.bind]
    rw [oversamplingTensor_apply b' T hT y (checkRows_ok hc)]
    cases oversamplingApply b' y with
    | error e => rfl
    | ok x => simp [Except.map, addOffset]

/-- **C07** The gradients agree as well. -/
theorem c07_same_gradient (b : Base K) (ys : List K) (t₁ t₂ : TF K c)
    (h₁ : (TF.oversampling b).setTimes ys = .ok t₁)
    (h₂ : (TF.matrix b (some 0) (oversamplingTensor c) none).setTimes ys = .ok t₂) (g : Grads K f c) :
    t₂.back g = t₁.back g := by
  have hcall := c07_same_call b ys t₁ t₂ h₁ h₂
  have h₁' := h₁
  simp only [TF.setTimes] at h₁ h₂
  obtain ⟨b', hb, h₁⟩ := bind_ok h₁
  obtain ⟨b'', hb', h₂⟩ := bind_ok h₂
  rw [hb] at hb'
  simp only [Except.ok.injEq] at hb'
  subst hb'
  simp only [pure, Except.pure, Except.ok.injEq] at h₁ h₂
  subst h₁; subst h₂
  obtain ⟨T, hT, hnx, hny⟩ := goodBuild_oversampling c b b' ys hb
  obtain ⟨x', ps, pe, hx, hyt, hn, hs, hpad, hl, hX⟩ := c01_grid_length b b' ys hb
  by_cases hg : g.length = b'.numX
  · obtain ⟨h, hh, hhl⟩ := c05_gradient_shape b _ ys g h₁' hg
    rw [hh, back_matrix, if_pos hg, getMatrix, hT]
    simp only [bind, Except.bind]
    have : ∃ h', T.applyAdj g = .ok h' := by
      unfold Tensor.applyAdj; rw [if_pos (by rw [hg, hnx])]; exact ⟨_, rfl⟩
    obtain ⟨h', hh'⟩ := this
    rw [hh']
    congr 1
    apply grads_ext ys.length
    · rw [(Tensor.applyAdj_length hh').1, hny, hn]
    · exact hhl
    · intro y φ hy
      obtain ⟨x, hx, -⟩ := c04_oversampling_rows b _ ys ps pe y h₁' hs hy
      have hx' := hcall y
      rw [hx] at hx'
      rw [run_oversampling] at hx
      rw [back_oversampling] at hh
      obtain ⟨u, hc, hx⟩ := bind_ok hx
      rw [← oversampling_adjoint b' y x g h φ (checkRows_ok hc) hx hh]
      rw [run_matrix, getMatrix, hT] at hx'
      obtain ⟨_, -, hx'⟩ := bind_ok hx'
      simp only [bind, Except.bind] at hx'
      obtain ⟨z, hz, hzx⟩ := map_ok hx'
      have hzx' : z = x := by rw [← hzx]; simp [addOffset]
      subst hzx'
      exact (tensor_adjoint T y z g h' φ (by rw [hny, checkRows_ok hc]) (by rw [hg, hnx]) hz hh').symm
  · rw [back_matrix, if_neg hg, back_oversampling]
    simp [oversamplingAdj, hg]

/-- Non-vacuity of C07: both objects accept the same times. -/
example : (∃ t, (TF.oversampling (Base.init ℚ (some ⟨.x, 1⟩) 2) : TF ℚ 1).setTimes [1, 2] = .ok t) ∧
    ∃ t, (TF.matrix (Base.init ℚ (some ⟨.x, 1⟩) 2) (some 0) (oversamplingTensor 1) none).setTimes [1, 2]
      = .ok t := ⟨⟨_, rfl⟩, ⟨_, rfl⟩⟩

/-! ## C08 -/

/-- **C08** Once the times are set, a concatenated transfer function applies `tf1` and then `tf2`. -/
theorem c08_call (b : Base K) (t₁ t₂ t : TF K c) (ys : List K)
    (h : (TF.concat b t₁ t₂).setTimes ys = .ok t) (y : Pulse K c) (hy : y.length = ys.length) :
    ∃ t₁' t₂' x, t₁.setTimes ys = .ok t₁' ∧ t₁'.base.xTimes = some x ∧ t₂.setTimes x = .ok t₂' ∧
      t.run y = (t₁'.run y >>= t₂'.run) := by
  obtain ⟨t₁', t₂', x, h₁, hx, h₂, rfl⟩ := setTimes_concat h
  refine ⟨t₁', t₂', x, h₁, hx, h₂, ?_⟩
  obtain ⟨hyt, hn, -⟩ := setTimes_grid _ _ _ h₁
  rw [run_concat, checkRows_of (ys := ys)]
  · rfl
  · simpa [copyTimes] using hyt
  · simp [copyTimes, hn, hy]

/-- **C08** A pulse with the wrong number of rows is rejected before either part runs. -/
theorem c08_wrong_rows (b : Base K) (t₁ t₂ t : TF K c) (ys : List K)
    (h : (TF.concat b t₁ t₂).setTimes ys = .ok t) (y : Pulse K c) (hy : y.length ≠ ys.length) :
    t.run y = .error .indexError := by
  obtain ⟨t₁', t₂', x, h₁, hx, h₂, rfl⟩ := setTimes_concat h
  obtain ⟨hyt, hn, -⟩ := setTimes_grid _ _ _ h₁
  rw [run_concat]
  simp [checkRows, copyTimes, hyt, hn, hy, bind, Except.bind]

/-- **C08** The gradient is the gradient of `tf1` after that of `tf2`. -/
theorem c08_gradient (b : Base K) (t₁ t₂ : TF K c) (g : Grads K f c) :
    (TF.concat b t₁ t₂).back g = (t₂.back g >>= t₁.back) := back_concat b t₁ t₂ g

/-- **C08** The composite gradient is adjoint to the composite call, for arbitrarily nested parts in any
state, when the gradient is asked from the object after both calls. -/
theorem c08_adjoint (b : Base K) (t₁ t₂ t t' t'' : TF K c) (y y' x x' : Pulse K c)
    (g h : Grads K f c) (φ : Fin f) (hf : Fits (TF.concat b t₁ t₂))
    (hx : (TF.concat b t₁ t₂).call y = .ok (t, x)) (hx' : t.call y' = .ok (t', x'))
    (hg : t'.grad g = .ok (t'', h)) :
    pairing g x φ - pairing g x' φ = pairing h y φ - pairing h y' φ := by
  have s1 := call_same _ _ _ _ hx
  have s2 := s1.trans (call_same _ _ _ _ hx')
  have h1 : (TF.concat b t₁ t₂).run y = .ok x := by rw [TF.run, hx]; rfl
  have h2 : (TF.concat b t₁ t₂).run y' = .ok x' := by rw [s1.2.1, TF.run, hx']; rfl
  have h3 : (TF.concat b t₁ t₂).back g = .ok h := by rw [s2.2.2, TF.back, hg]; rfl
  refine (adjoint_all _ y y' x x' g h φ hf ?_ h1 h2 h3).1
  rw [run_concat] at h1 h2
  obtain ⟨_, hc, -⟩ := bind_ok h1
  obtain ⟨_, hc', -⟩ := bind_ok h2
  rw [checkRows_ok hc, checkRows_ok hc']

/-- **C08** The grid of the composite: `tf2`'s grid refined from `tf1`'s output grid. -/
theorem c08_grid (b : Base K) (t₁ t₂ t : TF K c) (ys : List K)
    (h : (TF.concat b t₁ t₂).setTimes ys = .ok t) :
    ∃ t₁' t₂' x z, t₁.setTimes ys = .ok t₁' ∧ t₁'.base.xTimes = some x ∧ t₂.setTimes x = .ok t₂' ∧
      t₂'.base.xTimes = some z ∧ t.base.xTimes = some z ∧ t.base.numX = z.length ∧
      t.base.yTimes = some ys ∧ t.base.numY = ys.length := by
  obtain ⟨t₁', t₂', x, h₁, hx, h₂, rfl⟩ := setTimes_concat h
  obtain ⟨hyt, hn, -⟩ := setTimes_grid _ _ _ h₁
  obtain ⟨-, -, z, hz, hl⟩ := setTimes_grid _ _ _ h₂
  exact ⟨t₁', t₂', x, z, h₁, hx, h₂, hz, hz, hl.symm, hyt, hn⟩

/-- Fresh objects that got their times return a pulse with `num_x` rows for every pulse with one row per
input step, for arbitrarily nested objects; and a gradient with one row per input step for every gradient
with `num_x` rows.  (C04/C06/C08/C09/C15: "a result of shape (num_x, num_ctrls)".) -/
theorem c15_shape : ∀ {c : Nat} (t t' : TF K c) (ys : List K), Usable t → t.setTimes ys = .ok t' →
    (∀ y : Pulse K c, y.length = ys.length → ∃ x, t'.run y = .ok x ∧ x.length = t'.base.numX) ∧
    (∀ (f : Nat) (g : Grads K f c), g.length = t'.base.numX →
      ∃ h, t'.back g = .ok h ∧ h.length = ys.length) := by
  intro c t
  induction t with
  | identity b =>
    intro t' ys hu h
    simp only [TF.setTimes] at h
    obtain ⟨b', hb, h⟩ := bind_ok h
    simp only [pure, Except.pure, Except.ok.injEq] at h
    subst h
    obtain ⟨x, ps, pe, -, -, -, hs, -, -, hX⟩ := c01_grid_length b b' ys hb
    rw [hu.1] at hs
    simp only [specPadding, Option.some.injEq, Prod.mk.injEq] at hs
    rw [← hs.1, ← hs.2, hu.2] at hX
    simp only [zero_add, one_mul, add_zero] at hX
    refine ⟨fun y hy => ⟨y, rfl, by simp [TF.base, hX, hy]⟩, fun f g hg => ⟨g, rfl, ?_⟩⟩
    simpa [TF.base, hX] using hg
  | oversampling b =>
    intro t' ys hu h
    refine ⟨fun y hy => ?_, fun f g hg => c05_gradient_shape b t' ys g h hg⟩
    have h' := h
    simp only [TF.setTimes] at h'
    obtain ⟨b', hb, h'⟩ := bind_ok h'
    obtain ⟨x, ps, pe, -, -, -, hs, -, -, hX⟩ := c01_grid_length b b' ys hb
    obtain ⟨x, hx, hl, -⟩ := c04_oversampling_rows b t' ys ps pe y h hs hy
    exact ⟨x, hx, hl⟩
  | matrix b o m ch =>
    intro t' ys hu h
    obtain ⟨rfl, hm⟩ := hu
    simp only [TF.setTimes] at h
    obtain ⟨b', hb, h⟩ := bind_ok h
    simp only [pure, Except.pure, Except.ok.injEq] at h
    subst h
    obtain ⟨T, hT, hnx, hny⟩ := hm b b' ys hb
    obtain ⟨x, ps, pe, -, hyt, hn, hs, -, -, hX⟩ := c01_grid_length b b' ys hb
    refine ⟨fun y hy => ?_, fun f g hg => ?_⟩
    · rw [run_matrix, checkRows_of hyt (by rw [hn, hy]), getMatrix, hT]
      simp only [bind, Except.bind]
      have : ∃ z, T.apply y = .ok z := by
        unfold Tensor.apply; rw [if_pos (by rw [hny, hn, hy])]; exact ⟨_, rfl⟩
      obtain ⟨z, hz⟩ := this
      refine ⟨addOffset o z, by rw [hz]; rfl, ?_⟩
      rw [addOffset_length, (Tensor.apply_length hz).1, hnx]; rfl
    · simp only [TF.base] at hg
      rw [back_matrix, if_pos hg, getMatrix, hT]
      simp only [bind, Except.bind]
      have : ∃ z, T.applyAdj g = .ok z := by
        unfold Tensor.applyAdj; rw [if_pos (by rw [hnx, hg])]; exact ⟨_, rfl⟩
      obtain ⟨z, hz⟩ := this
      exact ⟨z, hz, by rw [(Tensor.applyAdj_length hz).1, hny, hn]⟩
  | concat b t₁ t₂ ih₁ ih₂ =>
    intro t' ys hu h
    obtain ⟨t₁', t₂', x, h₁, hx, h₂, rfl⟩ := setTimes_concat h
    obtain ⟨hyt, hn, x', hx', hxl⟩ := setTimes_grid _ _ _ h₁
    rw [hx] at hx'
    simp only [Option.some.injEq] at hx'
    subst hx'
    refine ⟨fun y hy => ?_, fun f g hg => ?_⟩
    · obtain ⟨z, hz, hzl⟩ := (ih₁ _ _ hu.1 h₁).1 y hy
      obtain ⟨w, hw, hwl⟩ := (ih₂ _ _ hu.2 h₂).1 z (by rw [hzl, hxl])
      refine ⟨w, ?_, hwl⟩
      rw [run_concat, checkRows_of (ys := ys) (by simpa [copyTimes] using hyt)
        (by simp [copyTimes, hn, hy])]
      simp only [bind, Except.bind, hz, hw]
    · obtain ⟨z, hz, hzl⟩ := (ih₂ _ _ hu.2 h₂).2 f g hg
      obtain ⟨w, hw, hwl⟩ := (ih₁ _ _ hu.1 h₁).2 f z (by rw [hzl, hxl])
      refine ⟨w, ?_, hwl⟩
      rw [back_concat, hz]
      exact hw
  | parallel b t₁ t₂ ih₁ ih₂ =>
    intro t' ys hu h
    obtain ⟨t₁', t₂', h₁, h₂, rfl⟩ := setTimes_parallel h
    obtain ⟨hyt, hn, -⟩ := setTimes_grid _ _ _ h₁
    have hX := hu.2.2 ys t₁' t₂' h₁ h₂
    refine ⟨fun y hy => ?_, fun f g hg => ?_⟩
    · obtain ⟨z, hz, hzl⟩ := (ih₁ _ _ hu.1 h₁).1 (leftCols y) (by simpa [leftCols] using hy)
      obtain ⟨w, hw, hwl⟩ := (ih₂ _ _ hu.2.1 h₂).1 (rightCols y) (by simpa [rightCols] using hy)
      refine ⟨List.zipWith (fun r s => Fin.append r s) z w, ?_, ?_⟩
      · rw [run_parallel, checkRows_of (ys := ys) (by simpa [copyTimes] using hyt)
          (by simp [copyTimes, hn, hy]), hz, hw]
        simp only [bind, Except.bind, hcat]
        rw [if_pos (by rw [hzl, hwl, hX])]
      · rw [List.length_zipWith, hzl, hwl, ← hX, Nat.min_self]; rfl
    · have hg' : g.length = t₁'.base.numX := hg
      obtain ⟨z, hz, hzl⟩ := (ih₁ _ _ hu.1 h₁).2 f (leftGrads g) (by simpa [leftGrads] using hg')
      obtain ⟨w, hw, hwl⟩ := (ih₂ _ _ hu.2.1 h₂).2 f (rightGrads g)
        (by simpa [rightGrads, ← hX] using hg')
      refine ⟨List.zipWith (fun r s φ => Fin.append (r φ) (s φ)) z w, ?_, ?_⟩
      · rw [back_parallel, hz, hw]
        simp only [bind, Except.bind, hcatG]
        rw [if_pos (by rw [hzl, hwl])]
      · simp [hzl, hwl]

/-- **C08** Concatenation is associative: for fresh parts both bracketings configure together, agree on
the grid, on every pulse that fits the grid and on every gradient. -/
theorem c08_associative (b b' d d' : Base K) (t₁ t₂ t₃ l r : TF K c) (ys : List K)
    (hu₁ : Usable t₁)
    (hl : (TF.concat b (TF.concat b' t₁ t₂) t₃).setTimes ys = .ok l)
    (hr : (TF.concat d t₁ (TF.concat d' t₂ t₃)).setTimes ys = .ok r) :
    l.base.xTimes = r.base.xTimes ∧ l.base.numX = r.base.numX ∧
      (∀ y : Pulse K c, y.length = ys.length → l.run y = r.run y) ∧
      ∀ g : Grads K f c, l.back g = r.back g := by
  obtain ⟨l₁, l₃, x, h12, hx, h3, rfl⟩ := setTimes_concat hl
  obtain ⟨t₁', t₂', x₁, h1, hx1, h2, rfl⟩ := setTimes_concat h12
  obtain ⟨s₁', r₂, x₁', g1, gx1, g23, rfl⟩ := setTimes_concat hr
  obtain ⟨s₂', s₃', x₂', g2, gx2, g3, rfl⟩ := setTimes_concat g23
  rw [h1] at g1
  simp only [Except.ok.injEq] at g1
  subst g1
  rw [hx1] at gx1
  simp only [Option.some.injEq] at gx1
  subst gx1
  rw [h2] at g2
  simp only [Except.ok.injEq] at g2
  subst g2
  have hx' : t₂'.base.xTimes = some x := hx
  rw [hx'] at gx2
  simp only [Option.some.injEq] at gx2
  subst gx2
  rw [h3] at g3
  simp only [Except.ok.injEq] at g3
  subst g3
  refine ⟨rfl, rfl, ?_, ?_⟩
  · intro y hy
    obtain ⟨hyt, hn, x₁', hx1', hxl⟩ := setTimes_grid _ _ _ h1
    rw [hx1] at hx1'
    simp only [Option.some.injEq] at hx1'
    subst hx1'
    obtain ⟨hyt2, hn2, -⟩ := setTimes_grid _ _ _ h2
    obtain ⟨z, hz, hzl⟩ := (c15_shape _ _ _ hu₁ h1).1 y hy
    have hc : ∀ b : Base K, checkRows (copyTimes b t₁'.base t₂'.base) y = .ok () := fun b =>
      checkRows_of (ys := ys) (by simpa [copyTimes] using hyt) (by simp [copyTimes, hn, hy])
    have hc3 : ∀ b e : Base K, checkRows (copyTimes b t₁'.base e) y = .ok () := fun b e =>
      checkRows_of (ys := ys) (by simpa [copyTimes] using hyt) (by simp [copyTimes, hn, hy])
    have hc4 : ∀ b e : Base K, checkRows (copyTimes b (TF.concat e t₁' t₂').base l₃.base) y =
        checkRows (copyTimes b e l₃.base) y := fun b e => rfl
    have hc2 : checkRows (copyTimes d' t₂'.base l₃.base) z = .ok () :=
      checkRows_of (ys := x₁) (by simpa [copyTimes] using hyt2) (by simp [copyTimes, hn2, hzl, hxl])
    rw [run_concat, run_concat, run_concat, hc4, hc, hc3]
    have hc5 : checkRows (copyTimes b (copyTimes b' t₁'.base t₂'.base) l₃.base) y = .ok () :=
      checkRows_of (ys := ys) (by simpa [copyTimes] using hyt) (by simp [copyTimes, hn, hy])
    rw [hc5, hz]
    simp only [bind, Except.bind]
    rw [run_concat, hc2]
    rfl
  · intro g
    rw [back_concat, back_concat, back_concat]
    cases l₃.back g with
    | error e => rfl
    | ok g₂ => simp only [bind, Except.bind]; rw [back_concat]; rfl

/-- Non-vacuity of C08: three nested oversampling stages are usable and accept times. -/
example : ∃ l, (TF.concat (Base.init ℚ none 12)
      (TF.concat (Base.init ℚ none 4) (TF.oversampling (Base.init ℚ none 2))
        (TF.oversampling (Base.init ℚ (some ⟨.n, 1⟩) 2)))
      (TF.oversampling (Base.init ℚ none 3)) : TF ℚ 2).setTimes [1, 2] = .ok l ∧ l.base.numX = 30 :=
  ⟨_, rfl, rfl⟩

/-! ## C09 -/

/-- **C09** `ParallelTF` applies its parts to their own columns. -/
theorem c09_call (b : Base K) (t₁ : TF K c₁) (t₂ : TF K c₂) (t : TF K (c₁ + c₂)) (ys : List K)
    (h : (TF.parallel b t₁ t₂).setTimes ys = .ok t) (y x : Pulse K (c₁ + c₂))
    (hx : t.run y = .ok x) :
    ∃ t₁' t₂' x₁ x₂, t₁.setTimes ys = .ok t₁' ∧ t₂.setTimes ys = .ok t₂' ∧
      t₁'.run (y.map fun r k => r (Fin.castAdd c₂ k)) = .ok x₁ ∧
      t₂'.run (y.map fun r k => r (Fin.natAdd c₁ k)) = .ok x₂ ∧
      (x.map fun r k => r (Fin.castAdd c₂ k)) = x₁ ∧ (x.map fun r k => r (Fin.natAdd c₁ k)) = x₂ := by
  obtain ⟨t₁', t₂', h₁, h₂, rfl⟩ := setTimes_parallel h
  rw [run_parallel] at hx
  obtain ⟨_, -, hx⟩ := bind_ok hx
  obtain ⟨x₁, hx₁, hx⟩ := bind_ok hx
  obtain ⟨x₂, hx₂, hx⟩ := bind_ok hx
  refine ⟨t₁', t₂', x₁, x₂, h₁, h₂, hx₁, hx₂, ?_⟩
  unfold hcat at hx
  split at hx
  · rename_i hl
    simp only [Except.ok.injEq] at hx
    subst hx
    constructor
    · apply List.ext_getElem (by simp [hl])
      intro i h1 h2
      funext k
      simp
    · apply List.ext_getElem (by simp [hl])
      intro i h1 h2
      funext k
      simp
  · simp at hx

/-- **C09** Changing columns of the second part never changes output columns of the first, and vice
versa. -/
theorem c09_independent (b : Base K) (t₁ : TF K c₁) (t₂ : TF K c₂) (t : TF K (c₁ + c₂)) (ys : List K)
    (h : (TF.parallel b t₁ t₂).setTimes ys = .ok t) (y y' x x' : Pulse K (c₁ + c₂))
    (hx : t.run y = .ok x) (hx' : t.run y' = .ok x') :
    ((y.map fun r k => r (Fin.castAdd c₂ k)) = (y'.map fun r k => r (Fin.castAdd c₂ k)) →
      (x.map fun r (k : Fin c₁) => r (Fin.castAdd c₂ k)) = (x'.map fun r k => r (Fin.castAdd c₂ k))) ∧
    ((y.map fun r k => r (Fin.natAdd c₁ k)) = (y'.map fun r k => r (Fin.natAdd c₁ k)) →
      (x.map fun r (k : Fin c₂) => r (Fin.natAdd c₁ k)) = (x'.map fun r k => r (Fin.natAdd c₁ k))) := by
  obtain ⟨t₁', t₂', x₁, x₂, h₁, h₂, hx₁, hx₂, e₁, e₂⟩ := c09_call b t₁ t₂ t ys h y x hx
  obtain ⟨s₁', s₂', z₁, z₂, g₁, g₂, hz₁, hz₂, f₁, f₂⟩ := c09_call b t₁ t₂ t ys h y' x' hx'
  rw [h₁] at g₁
  rw [h₂] at g₂
  simp only [Except.ok.injEq] at g₁ g₂
  subst g₁; subst g₂
  constructor
  · intro he
    rw [he, hz₁] at hx₁
    simp only [Except.ok.injEq] at hx₁
    rw [e₁, f₁, hx₁]
  · intro he
    rw [he, hz₂] at hx₂
    simp only [Except.ok.injEq] at hx₂
    rw [e₂, f₂, hx₂]

/-- **C09** The gradient splits the same way. -/
theorem c09_gradient (b : Base K) (t₁ : TF K c₁) (t₂ : TF K c₂) (g h : Grads K f (c₁ + c₂))
    (hh : (TF.parallel b t₁ t₂).back g = .ok h) :
    t₁.back (g.map fun r φ k => r φ (Fin.castAdd c₂ k)) = .ok (h.map fun r φ k => r φ (Fin.castAdd c₂ k)) ∧
    t₂.back (g.map fun r φ k => r φ (Fin.natAdd c₁ k)) = .ok (h.map fun r φ k => r φ (Fin.natAdd c₁ k)) := by
  rw [back_parallel] at hh
  obtain ⟨x₁, hx₁, hh⟩ := bind_ok hh
  obtain ⟨x₂, hx₂, hh⟩ := bind_ok hh
  unfold hcatG at hh
  split at hh
  · rename_i hl
    simp only [Except.ok.injEq] at hh
    subst hh
    constructor
    · refine hx₁.trans ?_
      congr 1
      apply List.ext_getElem (by simp [hl])
      intro i h1 h2
      funext φ k
      simp
    · refine hx₂.trans ?_
      congr 1
      apply List.ext_getElem (by simp [hl])
      intro i h1 h2
      funext φ k
      simp
  · simp at hh

/-- **C09** The gradient of a parallel transfer function is adjoint to its call. -/
theorem c09_adjoint (b : Base K) (t₁ : TF K c₁) (t₂ : TF K c₂) (t t' t'' : TF K (c₁ + c₂))
    (y y' x x' : Pulse K (c₁ + c₂)) (g h : Grads K f (c₁ + c₂)) (φ : Fin f)
    (hf : Fits (TF.parallel b t₁ t₂)) (hx : (TF.parallel b t₁ t₂).call y = .ok (t, x)) (hx' : t.call y' = .ok (t', x'))
    (hg : t'.grad g = .ok (t'', h)) :
    pairing g x φ - pairing g x' φ = pairing h y φ - pairing h y' φ := by
  have s1 := call_same _ _ _ _ hx
  have s2 := s1.trans (call_same _ _ _ _ hx')
  have h1 : (TF.parallel b t₁ t₂).run y = .ok x := by rw [TF.run, hx]; rfl
  have h2 : (TF.parallel b t₁ t₂).run y' = .ok x' := by rw [s1.2.1, TF.run, hx']; rfl
  have h3 : (TF.parallel b t₁ t₂).back g = .ok h := by rw [s2.2.2, TF.back, hg]; rfl
  refine (adjoint_all _ y y' x x' g h φ hf ?_ h1 h2 h3).1
  rw [run_parallel] at h1 h2
  obtain ⟨_, hc, -⟩ := bind_ok h1
  obtain ⟨_, hc', -⟩ := bind_ok h2
  rw [checkRows_ok hc, checkRows_ok hc']

/-- Non-vacuity of C09: an oversampling part beside a matrix part. -/
example : ∃ t x, (TF.parallel (Base.init ℚ none 2) (TF.oversampling (Base.init ℚ none 2) : TF ℚ 1)
      (TF.matrix (Base.init ℚ none 2) (some 0) (oversamplingTensor 2) none)).setTimes [1, 1] = .ok t ∧
    t.run [fun _ => 1, fun _ => 2] = .ok x ∧ x.length = 4 := ⟨_, _, rfl, rfl, rfl⟩

/-- Calls and gradient requests may be interleaved in any order: no sequence of them changes what the
object computes (only the lazily built matrix is stored).  Used by C06, C08 and C09. -/
theorem c06_calls_do_not_interfere (t u : TF K c)
    (h : Relation.ReflTransGen (fun a b : TF K c => (∃ y x, a.call y = .ok (b, x)) ∨
      ∃ (f : Nat) (g h : Grads K f c), a.grad g = .ok (b, h)) t u) :
    (∀ y, t.run y = u.run y) ∧ ∀ (f : Nat) (g : Grads K f c), t.back g = u.back g := by
  suffices Same t u from this.2
  induction h with
  | refl => exact .refl _
  | tail _ hs ih =>
    rcases hs with ⟨y, x, hs⟩ | ⟨f, g, h, hs⟩
    · exact ih.trans (call_same _ _ _ _ hs)
    · exact ih.trans (grad_same _ _ _ _ hs)

end
end Verif.Transfer
