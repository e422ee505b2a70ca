import Mathlib.Tactic.FinCases
import Verif.Transfer.MtfModel

/-! # Property theorems C11 and C12: composite matrix transfer functions and offsets -/

namespace Verif.Transfer
open Verif TF

section
variable {K : Type} [Field K] {c c₁ c₂ f : Nat}

/-! ## C11

Full statement: after `set_times` a `ConcatenateMTF` can be called and returns what applying both parts
returns.  The code violates it for every `ConcatenateMTF`. -/

/-- **C11 violated**: no `ConcatenateMTF` can ever be called successfully, whatever its parts, times,
offsets and pulse: `_transfer_matrix` stays `None`. -/
theorem c11_violated (b : Base K) (o : Option K) (t₁ t₂ : MTF K c) (y x : Pulse K c) :
    (MTF.concat b o t₁ t₂).run y ≠ .ok x := by
  intro h
  obtain ⟨p, h, -⟩ := map_ok h
  unfold MTF.call at h
  obtain ⟨_, -, h⟩ := bind_ok h
  simp only [MTF.cached, MTF.calculate] at h
  obtain ⟨t', ht', h⟩ := bind_ok h
  obtain ⟨a, -, ht'⟩ := bind_ok ht'
  obtain ⟨a', -, ht'⟩ := bind_ok ht'
  simp only [pure, Except.pure, Except.ok.injEq] at ht'
  subst ht'
  simp [MTF.cached] at h

/-- **C11 violated**, concrete witness: two doubling `OversamplingMTF`s; the parts work one after the other,
the concatenation raises `ValueError`. -/
theorem c11_violated_witness :
    ∃ (t t₁ t₂ : MTF ℚ 1) (z w : Pulse ℚ 1),
      (MTF.mkConcat (.leaf (Base.init ℚ none 2) (some 0) (oversamplingTensor 1) none)
        (.leaf (Base.init ℚ none 2) (some 0) (oversamplingTensor 1) none)).setTimes [1] = .ok t ∧
      t.run [fun _ => 3] = .error .valueError ∧
      (MTF.leaf (Base.init ℚ none 2) (some 0) (oversamplingTensor 1) none).setTimes [1] = .ok t₁ ∧
      t₁.run [fun _ => 3] = .ok z ∧
      (MTF.leaf (Base.init ℚ none 2) (some 0) (oversamplingTensor 1) none).setTimes [1/2, 1/2] = .ok t₂ ∧
      t₂.run z = .ok w ∧ w.length = 4 :=
  ⟨_, _, _, _, _, rfl, rfl, rfl, rfl, rfl, rfl, rfl⟩

/-- Index into an axis of length `n` that may be repeated. -/
def bIdx (n j : Nat) : Nat := if n = 1 then 0 else j

/-- Length of two axes after repetition. -/
def bLen (n m : Nat) : Nat := if n = 1 then m else n

theorem Tensor.apply_eq (T : Tensor K c) (y : Pulse K c) :
    T.apply y = if y.length = T.ny ∨ T.ny = 1 ∨ y.length = 1 then
      .ok ((List.range T.nx).map fun i k => ∑ j ∈ Finset.range (bLen T.ny y.length),
        T.val i (bIdx T.ny j) k * rowAt y (bIdx y.length j) k)
      else .error .valueError := by
  unfold Tensor.apply bIdx bLen
  by_cases h1 : y.length = T.ny
  · rw [if_pos h1, if_pos (.inl h1)]
    by_cases h2 : T.ny = 1
    · simp [h2, h1]
    · simp [h1, h2]
  · by_cases h2 : T.ny = 1
    · have h3 : y.length ≠ 1 := fun h => h1 (by omega)
      simp [h2, h3]
    · by_cases h3 : y.length = 1
      · have : ¬ 1 = T.ny := fun h => h2 h.symm
        simp [h2, h3, this]
      · simp [h1, h2, h3]

theorem Tensor.comp_eq (T₂ T₁ : Tensor K c) :
    T₂.comp T₁ = if T₂.ny = T₁.nx ∨ T₂.ny = 1 ∨ T₁.nx = 1 then
      .ok ⟨T₂.nx, T₁.ny, fun i l k => ∑ j ∈ Finset.range (bLen T₂.ny T₁.nx),
        T₂.val i (bIdx T₂.ny j) k * T₁.val (bIdx T₁.nx j) l k⟩
      else .error .valueError := by
  unfold Tensor.comp bIdx bLen
  by_cases h1 : T₂.ny = T₁.nx
  · rw [if_pos h1, if_pos (.inl h1)]
    by_cases h2 : T₁.nx = 1
    · simp [h1, h2]
    · simp [h1, h2]
  · by_cases h2 : T₂.ny = 1
    · have h3 : T₁.nx ≠ 1 := fun h => h1 (by omega)
      simp [h2, h3, show ¬ 1 = T₁.nx from fun h => h3 h.symm]
    · by_cases h3 : T₁.nx = 1
      · simp [h2, h3]
      · simp [h1, h2, h3]

/-- The composed tensor acts as first `T₁` and then `T₂`, also where axes of length one are repeated. -/
theorem Tensor.comp_apply (T₂ T₁ T : Tensor K c) (hT : T₂.comp T₁ = .ok T) (y : Pulse K c) :
    T.apply y = (T₁.apply y >>= T₂.apply) := by
  rw [Tensor.comp_eq] at hT
  split at hT
  · rename_i hn
    simp only [Except.ok.injEq] at hT
    subst hT
    rw [Tensor.apply_eq, Tensor.apply_eq T₁]
    simp only
    by_cases hy : y.length = T₁.ny ∨ T₁.ny = 1 ∨ y.length = 1
    · rw [if_pos hy, if_pos hy]
      simp only [bind, Except.bind]
      rw [Tensor.apply_eq, if_pos (by simpa [eq_comm] using hn)]
      congr 1
      apply List.map_congr_left
      intro i _
      funext k
      simp only [List.length_map, List.length_range, Finset.sum_mul]
      rw [Finset.sum_comm]
      apply Finset.sum_congr rfl
      intro j hj
      rw [rowAt_map_range _ _ _ (by
        have := Finset.mem_range.mp hj
        unfold bLen at this
        unfold bIdx
        split
        · omega
        · split at this <;> omega), Finset.mul_sum]
      exact Finset.sum_congr rfl fun l _ => by ring
    · rw [if_neg hy, if_neg hy]
      rfl
  · simp at hT

/-- **C11 (partial)** The *reported* transfer matrix of a `ConcatenateMTF` is the per-channel product of
the reported matrices of the parts and acts as the first part followed by the second.  Missing for the full
statement: the object itself cannot be called (`c11_violated`). -/
theorem c11_transfer_matrix_partial (b : Base K) (o : Option K) (t₁ t₂ t : MTF K c) (T : Tensor K c)
    (h : (MTF.concat b o t₁ t₂).transferMatrix = .ok (t, T)) :
    ∃ t₁' t₂' T₁ T₂, t₁.transferMatrix = .ok (t₁', T₁) ∧ t₂.transferMatrix = .ok (t₂', T₂) ∧
      T.nx = T₂.nx ∧ T.ny = T₁.ny ∧
      (T₂.ny = T₁.nx → ∀ i l k, T.val i l k = ∑ j ∈ Finset.range T₁.nx, T₂.val i j k * T₁.val j l k) ∧
      ∀ y, T.apply y = (T₁.apply y >>= T₂.apply) := by
  simp only [MTF.transferMatrix] at h
  obtain ⟨⟨t₂', T₂⟩, h₂, h⟩ := bind_ok h
  obtain ⟨⟨t₁', T₁⟩, h₁, h⟩ := bind_ok h
  obtain ⟨T', hT, h⟩ := bind_ok h
  simp only [pure, Except.pure, Except.ok.injEq, Prod.mk.injEq] at h
  obtain ⟨-, rfl⟩ := h
  refine ⟨t₁', t₂', T₁, T₂, h₁, h₂, ?_⟩
  have hc := Tensor.comp_apply T₂ T₁ T' hT
  refine ⟨?_, ?_, ?_, hc⟩
  · rw [Tensor.comp_eq] at hT
    split at hT
    · simp only [Except.ok.injEq] at hT
      rw [← hT]
    · simp at hT
  · rw [Tensor.comp_eq] at hT
    split at hT
    · simp only [Except.ok.injEq] at hT
      rw [← hT]
    · simp at hT
  · intro hn i l k
    unfold Tensor.comp at hT
    rw [if_pos hn] at hT
    simp only [Except.ok.injEq] at hT
    rw [← hT, ← hn]

/-- Non-vacuity: the reported matrix exists for the witness of the violation. -/
example : ∃ t t' T, (MTF.mkConcat (.leaf (Base.init ℚ none 2) (some 0) (oversamplingTensor 1) none)
      (.leaf (Base.init ℚ none 2) (some 0) (oversamplingTensor 1) none)).setTimes [1] = .ok t ∧
    t.transferMatrix = .ok (t', T) ∧ T.nx = 4 ∧ T.ny = 1 := ⟨_, _, _, rfl, rfl, rfl, rfl⟩

/-- **C11** The matrices of the parts must fit: ValueError otherwise, unless one of the axes has length one and is repeated. -/
theorem c11_rejects (b : Base K) (o : Option K) (t₁ t₂ t₁' t₂' : MTF K c) (T₁ T₂ : Tensor K c)
    (h₁ : t₁.transferMatrix = .ok (t₁', T₁)) (h₂ : t₂.transferMatrix = .ok (t₂', T₂)) (hn : T₂.ny ≠ T₁.nx) :
    (MTF.concat b o t₁ t₂).transferMatrix = .error .valueError ↔ T₂.ny ≠ 1 ∧ T₁.nx ≠ 1 := by
  simp only [MTF.transferMatrix, h₁, h₂, bind, Except.bind, Tensor.comp, if_neg hn]
  by_cases h2 : T₂.ny = 1
  · simp [h2, pure, Except.pure]
  · by_cases h3 : T₁.nx = 1
    · simp [h2, h3, pure, Except.pure]
    · simp [h2, h3]

example : (MTF.concat (Base.init ℚ none 1) none (.leaf (Base.init ℚ none 1) none (oversamplingTensor 1) (some ⟨2, 1, fun _ _ _ => 1⟩))
    (.leaf (Base.init ℚ none 1) none (oversamplingTensor 1) (some ⟨4, 3, fun _ _ _ => 1⟩))).transferMatrix = .error .valueError :=
  (c11_rejects _ _ _ _ _ _ _ _ rfl rfl (by decide)).2 (by decide)

/-- **C12** `ParallelMTF` refuses parts on different grids: AssertionError for different numbers of steps, ValueError for different
padding or oversampling. -/
theorem c12_parallel_rejects {c₁ c₂ : Nat} (t₁ : MTF K c₁) (t₂ : MTF K c₂) :
    (t₁.base.numY ≠ t₂.base.numY → MTF.mkParallel t₁ t₂ = .error .assertionError) ∧
    (t₁.base.numY = t₂.base.numY → t₁.base.bound ≠ t₂.base.bound ∨ t₁.base.oversampling ≠ t₂.base.oversampling →
      MTF.mkParallel t₁ t₂ = .error .valueError) ∧
    (t₁.base.numY = t₂.base.numY → t₁.base.bound = t₂.base.bound → t₁.base.oversampling = t₂.base.oversampling →
      ∃ t, MTF.mkParallel t₁ t₂ = .ok t) := by
  unfold MTF.mkParallel
  refine ⟨fun h => by simp [h], fun h h' => ?_, fun h h' h'' => by simp [h, h', h'']⟩
  by_cases hb : t₁.base.bound = t₂.base.bound
  · rcases h' with h' | h'
    · exact absurd hb h'
    · simp [h, hb, h']
  · simp [h, hb]

example : MTF.mkParallel (.leaf (Base.init ℚ none 1) none (oversamplingTensor 1) none)
    (.leaf (Base.init ℚ (some ⟨.n, 1⟩) 1) none (oversamplingTensor 2) none) = .error .valueError :=
  (c12_parallel_rejects _ _).2.1 rfl (.inl (by simp [MTF.base, Base.init]))

/-! ## C12

Full statement: for every kind of composition the offsets of the parts appear in the output as when the
parts are applied one after the other / side by side.  True for `ConcatenateTF` and `ParallelTF`; false
for `ParallelMTF` (offset dropped) and for the `offset` a `ConcatenateMTF` reports. -/

/-- **C12 (partial)** `ConcatenateTF` of two matrix transfer functions: the first offset is sent through the
second matrix and the second offset is added.  Missing: the matrix versions below. -/
theorem c12_concat_partial (b b₁ b₂ : Base K) (o₁ o₂ : K) (m₁ m₂) (T₁ T₂ : Tensor K c) (y x : Pulse K c)
    (i : Nat) (k : Fin c) (hi : i < T₂.nx) (hf₁ : T₁.ny = b₁.numY) (hf₂ : T₂.ny = b₂.numY)
    (hx : (TF.concat b (.matrix b₁ (some o₁) m₁ (some T₁)) (.matrix b₂ (some o₂) m₂ (some T₂))).run y
      = .ok x) :
    rowAt x i k = (∑ j ∈ Finset.range T₁.nx, T₂.val i j k *
      ((∑ l ∈ Finset.range y.length, T₁.val j l k * rowAt y l k) + o₁)) + o₂ := by
  rw [run_concat] at hx
  obtain ⟨_, -, hx⟩ := bind_ok hx
  obtain ⟨z, hz, hx⟩ := bind_ok hx
  have h2 := c06_affine b₂ (some o₂) m₂ T₂ z x i k hf₂ hx hi
  rw [h2.2]
  have hzl : z.length = T₁.nx := by
    rw [run_matrix] at hz
    obtain ⟨_, -, hz⟩ := bind_ok hz
    simp only [getMatrix, bind, Except.bind] at hz
    obtain ⟨z', hz', rfl⟩ := map_ok hz
    rw [addOffset_length, (Tensor.apply_length hz').1]
  rw [hzl]
  congr 1
  apply Finset.sum_congr rfl
  intro j hj
  rw [(c06_affine b₁ (some o₁) m₁ T₁ y z j k hf₁ hz (Finset.mem_range.mp hj)).2]
  rfl

/-- **C12 (partial)** `ParallelTF`: each part keeps its offset in its own columns. -/
theorem c12_parallel_partial (b b₁ b₂ : Base K) (o₁ o₂ : K) (m₁ m₂) (T₁ : Tensor K c₁) (T₂ : Tensor K c₂)
    (y x : Pulse K (c₁ + c₂)) (i : Nat) (hi : i < T₁.nx) (hf₁ : T₁.ny = b₁.numY) (hf₂ : T₂.ny = b₂.numY)
    (hx : (TF.parallel b (.matrix b₁ (some o₁) m₁ (some T₁)) (.matrix b₂ (some o₂) m₂ (some T₂))).run y
      = .ok x) :
    (∀ k : Fin c₁, rowAt x i (Fin.castAdd c₂ k)
      = (∑ l ∈ Finset.range y.length, T₁.val i l k * rowAt y l (Fin.castAdd c₂ k)) + o₁) ∧
    (∀ k : Fin c₂, rowAt x i (Fin.natAdd c₁ k)
      = (∑ l ∈ Finset.range y.length, T₂.val i l k * rowAt y l (Fin.natAdd c₁ k)) + o₂) := by
  rw [run_parallel] at hx
  obtain ⟨_, -, hx⟩ := bind_ok hx
  obtain ⟨z, hz, hx⟩ := bind_ok hx
  obtain ⟨w, hw, hx⟩ := bind_ok hx
  unfold hcat at hx
  split at hx
  · rename_i hl
    simp only [Except.ok.injEq] at hx
    subst hx
    have hz1 := fun k => c06_affine b₁ (some o₁) m₁ T₁ _ z i k hf₁ hz hi
    have hwl : w.length = T₂.nx := by
      rw [run_matrix] at hw
      obtain ⟨_, -, hw⟩ := bind_ok hw
      simp only [getMatrix, bind, Except.bind] at hw
      obtain ⟨z', hz', rfl⟩ := map_ok hw
      rw [addOffset_length, (Tensor.apply_length hz').1]
    have hzl : z.length = T₁.nx := by
      rw [run_matrix] at hz
      obtain ⟨_, -, hz⟩ := bind_ok hz
      simp only [getMatrix, bind, Except.bind] at hz
      obtain ⟨z', hz', rfl⟩ := map_ok hz
      rw [addOffset_length, (Tensor.apply_length hz').1]
    have hw1 := fun k => c06_affine b₂ (some o₂) m₂ T₂ _ w i k hf₂ hw (by omega)
    have hiz : i < z.length := by omega
    have hiw : i < w.length := by omega
    have hrow : rowAt (List.zipWith (fun r s => Fin.append r s) z w) i
        = Fin.append (rowAt z i) (rowAt w i) := by
      simp [rowAt, List.getD_eq_getElem?_getD, hiz, hiw]
    have hleft : ∀ l, rowAt (leftCols y) l = fun k => rowAt y l (Fin.castAdd c₂ k) := by
      intro l
      by_cases hl : l < y.length <;> simp [rowAt, leftCols, hl]; rfl
    have hright : ∀ l, rowAt (rightCols y) l = fun k => rowAt y l (Fin.natAdd c₁ k) := by
      intro l
      by_cases hl : l < y.length <;> simp [rowAt, rightCols, hl]; rfl
    constructor
    · intro k
      have hlen : (leftCols y : Pulse K c₁).length = y.length := by simp [leftCols]
      rw [hrow, Fin.append_left, (hz1 k).2, hlen]
      simp only [hleft, Option.getD_some]
    · intro k
      have hlen : (rightCols y : Pulse K c₂).length = y.length := by simp [rightCols]
      rw [hrow, Fin.append_right, (hw1 k).2, hlen]
      simp only [hright, Option.getD_some]
  · simp at hx

/-- **C12 violated** for `ParallelMTF`: two identical parts with offset 5 return `6` when called, the
parallel object returns `1`; `ParallelTF` of the same parts returns `6`. -/
theorem c12_violated_parallel :
    ∃ (p : MTF ℚ 2) (t : MTF ℚ 2) (s : MTF ℚ 1) (x : Pulse ℚ 2) (z : Pulse ℚ 1),
      MTF.mkParallel (.leaf (Base.init ℚ none 1) (some 5) (oversamplingTensor 1) none)
        (.leaf (Base.init ℚ none 1) (some 5) (oversamplingTensor 1) none) = .ok p ∧
      p.setTimes [1] = .ok t ∧ t.run [fun _ => 1] = .ok x ∧ (∀ k, rowAt x 0 k = 1) ∧
      (MTF.leaf (Base.init ℚ none 1) (some 5) (oversamplingTensor 1) none).setTimes [1] = .ok s ∧
      s.run [fun _ => 1] = .ok z ∧ (∀ k, rowAt z 0 k = 6) := by
  refine ⟨_, _, _, _, _, rfl, rfl, rfl, ?_, rfl, rfl, ?_⟩
  · intro k
    fin_cases k <;>
      norm_num [rowAt, addOffset, Tensor.ofRows, npEye, npZeros, npRepeat, Fin.append, Fin.addCases,
        List.range_succ, Base.init, MTF.offset]
  · intro k
    norm_num [rowAt, addOffset, Tensor.ofRows, npEye, npZeros, npRepeat, List.range_succ, Base.init,
      MTF.offset]

/-- **C12 violated** for `ConcatenateMTF`: the offset it reports is the sum of the parts' offsets although
the first offset passes through the second matrix (here scaled by 2), so the composite affine map has offset
`2 * 3 + 4 = 10`, not `7`. -/
theorem c12_violated_concat :
    ∃ (t : MTF ℚ 1) (x : Pulse ℚ 1),
      t = MTF.mkConcat (.leaf ⟨none, 1, 1, some [1], 1, some [1]⟩ (some 3) (fun _ => .error .valueError)
          (some ⟨1, 1, fun _ _ _ => 2⟩))
        (.leaf ⟨none, 1, 1, some [1], 1, some [1]⟩ (some 4) (fun _ => .error .valueError)
          (some ⟨1, 1, fun _ _ _ => 2⟩)) ∧
      t.offset = some 7 ∧
      (TF.concat ⟨none, 1, 1, some [1], 1, some [1]⟩
        (.matrix ⟨none, 1, 1, some [1], 1, some [1]⟩ (some 3) (fun _ => .error .valueError)
          (some ⟨1, 1, fun _ _ _ => 2⟩))
        (.matrix ⟨none, 1, 1, some [1], 1, some [1]⟩ (some 4) (fun _ => .error .valueError)
          (some ⟨1, 1, fun _ _ _ => 2⟩)) : TF ℚ 1).run [fun _ => 0] = .ok x ∧
      (∀ k, rowAt x 0 k = 10) := by
  refine ⟨_, _, rfl, ?_, rfl, ?_⟩
  · norm_num [MTF.mkConcat, MTF.offset]
  · intro k
    norm_num [rowAt, addOffset]

/-- **C12 (partial)** A `ParallelMTF` whose parts have no offset (or offset 0) returns the parts' outputs
side by side.  Missing: parts with a non-zero offset (violated above). -/
theorem c12_parallel_mtf_zero_offset_partial (b b₁ b₂ : Base K) (T₁ : Tensor K c₁) (T₂ : Tensor K c₂)
    (m₁ m₂) (o₁ o₂ : Option K) (ho₁ : o₁.getD 0 = 0) (ho₂ : o₂.getD 0 = 0) (y x : Pulse K (c₁ + c₂))
    (hx : (MTF.parallel b none none (.leaf b₁ o₁ m₁ (some T₁)) (.leaf b₂ o₂ m₂ (some T₂))).run y = .ok x)
    (h₁ : checkRows b₁ (leftCols y : Pulse K c₁) = .ok ())
    (h₂ : checkRows b₂ (rightCols y : Pulse K c₂) = .ok ()) :
    ∃ x₁ x₂, (MTF.leaf b₁ o₁ m₁ (some T₁)).run (leftCols y) = .ok x₁ ∧
      (MTF.leaf b₂ o₂ m₂ (some T₂)).run (rightCols y) = .ok x₂ ∧ hcat x₁ x₂ = .ok x := by
  have hzero : ∀ {c : Nat} (o : Option K) (z : Pulse K c), o.getD 0 = 0 → addOffset o z = z := by
    intro c o z ho
    cases o with
    | none => rfl
    | some o => simp only [Option.getD_some] at ho; subst ho; simp [addOffset]
  obtain ⟨p, hx', rfl⟩ := map_ok hx
  clear hx
  rename' hx' => hx
  unfold MTF.call at hx
  obtain ⟨_, hc, hx⟩ := bind_ok hx
  simp only [MTF.cached, MTF.calculate, MTF.transferMatrix, getMatrix, bind, Except.bind, pure,
    Except.pure] at hx
  cases hT : T₁.concatAxis2 T₂ with
  | error e => rw [hT] at hx; simp at hx
  | ok T =>
    rw [hT] at hx
    simp only at hx
    cases hz : T.apply y with
    | error e => rw [hz] at hx; simp at hx
    | ok z =>
      rw [hz] at hx
      simp only [Except.ok.injEq] at hx
      subst hx
      unfold Tensor.concatAxis2 at hT
      split at hT
      · rename_i hn
        simp only [Except.ok.injEq] at hT
        subst hT
        rw [Tensor.apply_eq] at hz
        simp only at hz
        split at hz
        · rename_i hy
          simp only [Except.ok.injEq] at hz
          subst hz
          have ll : (leftCols y : Pulse K c₁).length = y.length := by simp [leftCols]
          have lr : (rightCols y : Pulse K c₂).length = y.length := by simp [rightCols]
          have el : ∀ j k, rowAt (leftCols y : Pulse K c₁) j k = rowAt y j (Fin.castAdd c₂ k) := by
            intro j k
            by_cases hj : j < y.length <;> simp [rowAt, leftCols, hj]
          have er : ∀ j k, rowAt (rightCols y : Pulse K c₂) j k = rowAt y j (Fin.natAdd c₁ k) := by
            intro j k
            by_cases hj : j < y.length <;> simp [rowAt, rightCols, hj]
          have a1 := Tensor.apply_eq T₁ (leftCols y : Pulse K c₁)
          rw [ll, if_pos hy] at a1
          have a2 := Tensor.apply_eq T₂ (rightCols y : Pulse K c₂)
          rw [lr, ← hn.2, if_pos hy] at a2
          refine ⟨(List.range T₁.nx).map fun i k => ∑ j ∈ Finset.range (bLen T₁.ny y.length),
              T₁.val i (bIdx T₁.ny j) k * rowAt (leftCols y) (bIdx y.length j) k,
            (List.range T₂.nx).map fun i k => ∑ j ∈ Finset.range (bLen T₁.ny y.length),
              T₂.val i (bIdx T₁.ny j) k * rowAt (rightCols y) (bIdx y.length j) k, ?_, ?_, ?_⟩
          · simp only [MTF.run, MTF.call, MTF.base, h₁, MTF.cached, bind, Except.bind, pure, Except.pure,
              a1, Except.map, MTF.offset, hzero o₁ _ ho₁]
          · simp only [MTF.run, MTF.call, MTF.base, h₂, MTF.cached, bind, Except.bind, pure, Except.pure,
              a2, Except.map, MTF.offset, hzero o₂ _ ho₂]
          · unfold hcat
            rw [if_pos (by simp [hn.1])]
            congr 1
            simp only [addOffset, MTF.offset]
            apply List.ext_getElem (by simp [hn.1])
            intro i h1 h2
            funext k
            simp only [List.getElem_zipWith, List.getElem_map, List.getElem_range]
            refine Fin.addCases (fun k => ?_) (fun k => ?_) k
            · rw [Fin.append_left]
              apply Finset.sum_congr rfl
              intro j hj
              rw [Fin.append_left, el]
            · rw [Fin.append_right]
              apply Finset.sum_congr rfl
              intro j hj
              rw [Fin.append_right, er]
        · simp at hz
      · simp at hT

end
/-! ## C15 for the matrix classes -/

/-- **C15** Every matrix transfer function, nested or not, rejects a pulse before it computes its matrix: RuntimeError without
times, IndexError for the wrong number of rows. -/
theorem c15_matrix_classes {K : Type} [Field K] {c : Nat} (t : MTF K c) (y : Pulse K c) :
    (t.base.yTimes = none → t.run y = .error .runtimeError) ∧
    (∀ ys, t.base.yTimes = some ys → y.length ≠ t.base.numY → t.run y = .error .indexError) := by
  refine ⟨fun h => ?_, fun ys h hl => ?_⟩
  · have : TF.checkRows t.base y = .error .runtimeError := by unfold TF.checkRows; rw [h]
    simp [MTF.run, MTF.call, this, bind, Except.bind, Except.map]
  · have : TF.checkRows t.base y = .error .indexError := by unfold TF.checkRows; rw [h]; simp [hl]
    simp [MTF.run, MTF.call, this, bind, Except.bind, Except.map]

/-- Both cases occur: a matrix transfer function in front of another, without times, and with two time steps for a pulse of one row. -/
example (T : Base ℚ → Except PyErr (Tensor ℚ 2)) (b : Base ℚ) :
    (MTF.concat (Base.init ℚ none 1) none (.leaf b none T none) (.leaf b none T none)).run [fun _ => 1] = .error .runtimeError :=
  (c15_matrix_classes _ _).1 rfl

example (T : Base ℚ → Except PyErr (Tensor ℚ 2)) (b : Base ℚ) :
    (MTF.concat ⟨none, 1, 2, some [1, 1], 2, some [1, 1]⟩ none (.leaf b none T none) (.leaf b none T none)).run [fun _ => 1] = .error .indexError :=
  (c15_matrix_classes _ _).2 _ rfl (by simp [MTF.base])

end Verif.Transfer
