import Verif.Transfer.Exponential
import Verif.Transfer.RetimeThms

/-! # Property theorems C14: the exponential transfer function never overshoots and is causal -/

namespace Verif.Transfer
open Verif TF

section
variable {c : Nat}

/-- A configured, unused `ExponentialMTF` with at least two steps, its pulse, and the padding the bound type
asks for: the situation of all C14 theorems. -/
structure ExpSetup (b : Base ℝ) (o : Option ℝ) (rise tau : ℝ) (rest : List ℝ) (ps pe : Nat) (t : TF ℝ c)
    (y : Pulse ℝ c) : Prop where
  os_pos : 0 < b.oversampling
  rise_pos : 0 < rise
  tau_pos : 0 < tau
  rest_ne : rest ≠ []
  padding : specPadding b.bound b.oversampling = some (ps, pe)
  times : (TF.matrix b o (exponentialTensor c rise) none).setTimes (tau :: rest) = .ok t
  rows : y.length = (tau :: rest).length

/-- **C14** Each sample is a convex combination (plus the offset) of the previous and the current pulse
value; the weight of the previous value is strictly between 0 and 1 and depends only on the position in
the step. -/
theorem c14_convex {b : Base ℝ} {o : Option ℝ} {rise tau : ℝ} {rest : List ℝ} {ps pe : Nat} {t : TF ℝ c}
    {y : Pulse ℝ c} (S : ExpSetup b o rise tau rest ps pe t y) :
    ∃ x, t.run y = .ok x ∧ x.length = t.base.numX ∧ ∃ w : Nat → ℝ, (∀ j, 0 < w j ∧ w j < 1) ∧
      ∀ i j, i < y.length → j < b.oversampling → ∀ k,
        rowAt x (ps + i * b.oversampling + j) k
          = w j * (if i = 0 then 0 else rowAt y (i - 1) k) + (1 - w j) * rowAt y i k + o.getD 0 := by
  obtain ⟨x, hx, hl, -, -, hmain, -⟩ := exponential_rows b o rise tau rest ps pe S.os_pos S.rest_ne S.padding
    t y S.times S.rows
  refine ⟨x, hx, hl, expDecay rise tau b.oversampling, ?_, ?_⟩
  · intro j
    have h1 := S.os_pos
    have h2 := S.rise_pos
    have h3 := S.tau_pos
    refine ⟨Real.exp_pos _, ?_⟩
    rw [expDecay, Real.exp_lt_one_iff]
    have : (0 : ℝ) < ((j : ℝ) + 1) * tau / b.oversampling / rise := by
      have : (0 : ℝ) < b.oversampling := by exact_mod_cast h1
      positivity
    linarith
  · intro i j hi hj k
    rw [hmain i j hi hj k]
    unfold prevValue
    ring

/-- **C14** Inside a step the response moves monotonically from the previous to the current value: later
samples of the same step are closer to the current value, on the same side. -/
theorem c14_monotone {b : Base ℝ} {o : Option ℝ} {rise tau : ℝ} {rest : List ℝ} {ps pe : Nat} {t : TF ℝ c}
    {y : Pulse ℝ c} (S : ExpSetup b o rise tau rest ps pe t y) (x : Pulse ℝ c) (hx : t.run y = .ok x)
    (i j j' : Nat) (hi : i < y.length) (hjj : j < j') (hj' : j' < b.oversampling) (k : Fin c) :
    let prev := if i = 0 then 0 else rowAt y (i - 1) k
    let cur := rowAt y i k
    (prev ≤ cur → rowAt x (ps + i * b.oversampling + j) k ≤ rowAt x (ps + i * b.oversampling + j') k) ∧
    (cur ≤ prev → rowAt x (ps + i * b.oversampling + j') k ≤ rowAt x (ps + i * b.oversampling + j) k) := by
  obtain ⟨x', hx', -, -, -, hmain, -⟩ := exponential_rows b o rise tau rest ps pe S.os_pos S.rest_ne
    S.padding t y S.times S.rows
  rw [hx] at hx'
  simp only [Except.ok.injEq] at hx'
  subst hx'
  have hdec : expDecay rise tau b.oversampling j' ≤ expDecay rise tau b.oversampling j := by
    have h1 : (0 : ℝ) < b.oversampling := by exact_mod_cast S.os_pos
    have h2 := S.rise_pos
    have h3 := S.tau_pos
    unfold expDecay
    apply Real.exp_le_exp.mpr
    have : (j : ℝ) ≤ j' := by exact_mod_cast hjj.le
    have : ((j : ℝ) + 1) * tau / b.oversampling / rise ≤ ((j' : ℝ) + 1) * tau / b.oversampling / rise := by
      gcongr
    linarith
  have a := hmain i j hi (by omega) k
  have b' := hmain i j' hi hj' k
  unfold prevValue at a b'
  simp only
  rw [a, b']
  constructor <;> intro h <;> nlinarith

/-- **C14** No overshoot: every sample stays in every interval that contains 0 and all pulse values
(shifted by the offset). -/
theorem c14_bounded {b : Base ℝ} {o : Option ℝ} {rise tau : ℝ} {rest : List ℝ} {ps pe : Nat} {t : TF ℝ c}
    {y : Pulse ℝ c} (S : ExpSetup b o rise tau rest ps pe t y) (lo hi : ℝ) (k : Fin c) (h0 : lo ≤ 0 ∧ 0 ≤ hi)
    (hy : ∀ i < y.length, lo ≤ rowAt y i k ∧ rowAt y i k ≤ hi) (x : Pulse ℝ c) (hx : t.run y = .ok x)
    (n : Nat) (hn : n < x.length) : lo + o.getD 0 ≤ rowAt x n k ∧ rowAt x n k ≤ hi + o.getD 0 := by
  obtain ⟨x', hx', hl, hX, hstart, -, hend⟩ := exponential_rows b o rise tau rest ps pe S.os_pos S.rest_ne
    S.padding t y S.times S.rows
  rw [hx] at hx'
  simp only [Except.ok.injEq] at hx'
  subst hx'
  obtain ⟨x', hx', -, w, hw, hmain⟩ := c14_convex S
  rw [hx] at hx'
  simp only [Except.ok.injEq] at hx'
  subst hx'
  rcases lt_or_ge n ps with h | h
  · rw [hstart n h k]; exact ⟨by linarith, by linarith⟩
  rcases lt_or_ge n (ps + b.oversampling * y.length) with h' | h'
  · obtain ⟨i, j, hi', hj, rfl⟩ : ∃ i j, i < y.length ∧ j < b.oversampling ∧
        n = ps + i * b.oversampling + j := by
      refine ⟨(n - ps) / b.oversampling, (n - ps) % b.oversampling, ?_, Nat.mod_lt _ S.os_pos, ?_⟩
      · rw [Nat.div_lt_iff_lt_mul S.os_pos, Nat.mul_comm]; omega
      · have := Nat.div_add_mod (n - ps) b.oversampling
        rw [Nat.mul_comm] at this
        omega
    rw [hmain i j hi' hj k]
    have hwj := hw j
    have h1 := hy i hi'
    have h2 : lo ≤ (if i = 0 then 0 else rowAt y (i - 1) k) ∧ (if i = 0 then 0 else rowAt y (i - 1) k) ≤ hi := by
      split
      · exact h0
      · exact hy (i - 1) (by omega)
    constructor <;> nlinarith
  · obtain ⟨i, rfl⟩ : ∃ i, n = ps + b.oversampling * y.length + i := ⟨n - (ps + b.oversampling * y.length), by omega⟩
    have hi' : i < pe := by rw [hl, hX] at hn; omega
    rw [hend i hi' k]
    have hlast := hy (y.length - 1) (by have := S.rows; simp at this; omega)
    have hpos := Real.exp_pos (-(((i : ℝ) + 1) / b.oversampling * tau / rise))
    have hle : Real.exp (-(((i : ℝ) + 1) / b.oversampling * tau / rise)) ≤ 1 := by
      rw [Real.exp_le_one_iff]
      have h1 : (0 : ℝ) < b.oversampling := by exact_mod_cast S.os_pos
      have h2 := S.rise_pos
      have h3 := S.tau_pos
      have : (0 : ℝ) ≤ ((i : ℝ) + 1) / b.oversampling * tau / rise := by positivity
      linarith
    constructor <;> nlinarith

/-- **C14** Causality: samples up to step `i` do not depend on later pulse values. -/
theorem c14_causal {b : Base ℝ} {o : Option ℝ} {rise tau : ℝ} {rest : List ℝ} {ps pe : Nat} {t : TF ℝ c}
    {y y' : Pulse ℝ c} (S : ExpSetup b o rise tau rest ps pe t y) (S' : ExpSetup b o rise tau rest ps pe t y')
    (x x' : Pulse ℝ c) (hx : t.run y = .ok x) (hx' : t.run y' = .ok x') (i : Nat) (hi : i < y.length)
    (heq : ∀ l ≤ i, rowAt y l = rowAt y' l) (n : Nat) (hn : n < ps + (i + 1) * b.oversampling) :
    rowAt x n = rowAt x' n := by
  obtain ⟨z, hz, hl, hX, hstart, hmain, -⟩ := exponential_rows b o rise tau rest ps pe S.os_pos S.rest_ne
    S.padding t y S.times S.rows
  rw [hx] at hz
  simp only [Except.ok.injEq] at hz
  subst hz
  obtain ⟨z, hz, hl', hX', hstart', hmain', -⟩ := exponential_rows b o rise tau rest ps pe S.os_pos S.rest_ne
    S.padding t y' S'.times S'.rows
  rw [hx'] at hz
  simp only [Except.ok.injEq] at hz
  subst hz
  have hlen : y'.length = y.length := by rw [S.rows, S'.rows]
  funext k
  rcases lt_or_ge n ps with h | h
  · rw [hstart n h k, hstart' n h k]
  · obtain ⟨a, j, ha, hj, rfl⟩ : ∃ a j, a ≤ i ∧ j < b.oversampling ∧ n = ps + a * b.oversampling + j := by
      refine ⟨(n - ps) / b.oversampling, (n - ps) % b.oversampling, ?_, Nat.mod_lt _ S.os_pos, ?_⟩
      · have : (n - ps) / b.oversampling < i + 1 := by rw [Nat.div_lt_iff_lt_mul S.os_pos]; omega
        omega
      · have := Nat.div_add_mod (n - ps) b.oversampling
        rw [Nat.mul_comm] at this
        omega
    rw [hmain a j (by omega) hj k, hmain' a j (by omega) hj k]
    unfold prevValue
    rw [heq a ha]
    split
    · rfl
    · rw [heq (a - 1) (by omega)]

/-- **C14** The start padding is 0 (plus offset) and in the end padding the response decays from the last
pulse value towards 0 (plus offset): each sample is the previous one times a fixed factor below 1. -/
theorem c14_padding {b : Base ℝ} {o : Option ℝ} {rise tau : ℝ} {rest : List ℝ} {ps pe : Nat} {t : TF ℝ c}
    {y : Pulse ℝ c} (S : ExpSetup b o rise tau rest ps pe t y) (x : Pulse ℝ c) (hx : t.run y = .ok x)
    (k : Fin c) :
    (∀ i < ps, rowAt x i k = o.getD 0) ∧
    ∃ q : ℝ, 0 < q ∧ q < 1 ∧ ∀ i < pe,
      rowAt x (ps + b.oversampling * y.length + i) k = rowAt y (y.length - 1) k * q ^ (i + 1) + o.getD 0 := by
  obtain ⟨z, hz, hl, hX, hstart, hmain, hend⟩ := exponential_rows b o rise tau rest ps pe S.os_pos S.rest_ne
    S.padding t y S.times S.rows
  rw [hx] at hz
  simp only [Except.ok.injEq] at hz
  subst hz
  refine ⟨fun i hi => hstart i hi k, Real.exp (-(1 / b.oversampling * tau / rise)), Real.exp_pos _, ?_, ?_⟩
  · rw [Real.exp_lt_one_iff]
    have h1 : (0 : ℝ) < b.oversampling := by exact_mod_cast S.os_pos
    have h2 := S.rise_pos
    have h3 := S.tau_pos
    have : (0 : ℝ) < 1 / b.oversampling * tau / rise := by positivity
    linarith
  · intro i hi
    rw [hend i hi k, ← Real.exp_nat_mul]
    congr 3
    push_cast
    ring

/-- Non-vacuity of C14: rise time 1, two steps of width 1, oversampling 2, bound type `('n', 1)`. -/
example : ∃ t, ExpSetup (c := 1) (Base.init ℝ (some ⟨.n, 1⟩) 2) none 1 1 [1] 1 1 t
    [fun _ => 1, fun _ => -1] := by
  refine ⟨_, by decide, one_pos, one_pos, by simp, rfl, rfl, rfl⟩

/-- **C10 violated** silently: a used `ExponentialMTF` that gets steps of another width (same number of
steps) keeps the old matrix and returns a different pulse than an unused object with the same times. -/
theorem c10_violated_silent :
    ∃ (t u v w : TF ℝ 1) (x z z' : Pulse ℝ 1),
      (TF.matrix (Base.init ℝ (some ⟨.x, 0⟩) 1) none (exponentialTensor 1 1) none).setTimes [1, 1] = .ok t ∧
      t.call [fun _ => 1, fun _ => 1] = .ok (u, x) ∧ u.setTimes [2, 2] = .ok v ∧
      (TF.matrix (Base.init ℝ (some ⟨.x, 0⟩) 1) none (exponentialTensor 1 1) none).setTimes [2, 2] = .ok w ∧
      v.run [fun _ => 1, fun _ => 1] = .ok z ∧ w.run [fun _ => 1, fun _ => 1] = .ok z' ∧ z ≠ z' := by
  set y : Pulse ℝ 1 := [fun _ => 1, fun _ => 1] with hy
  have T1 : ∃ t, (TF.matrix (Base.init ℝ (some ⟨.x, 0⟩) 1) none (exponentialTensor 1 1) none).setTimes [1, 1]
    = .ok t := ⟨_, rfl⟩
  have T2 : ∃ w, (TF.matrix (Base.init ℝ (some ⟨.x, 0⟩) 1) none (exponentialTensor 1 1) none).setTimes [2, 2]
    = .ok w := ⟨_, rfl⟩
  obtain ⟨t, ht⟩ := T1
  obtain ⟨w, hw⟩ := T2
  obtain ⟨x, hx, -, -, -, hm, -⟩ := exponential_rows (c := 1) (Base.init ℝ (some ⟨.x, 0⟩) 1) none 1 1 [1] 0 0
    (by decide) (by simp) rfl t y ht rfl
  obtain ⟨z', hz', -, -, -, hm', -⟩ := exponential_rows (c := 1) (Base.init ℝ (some ⟨.x, 0⟩) 1) none 1 2 [2] 0
    0 (by decide) (by simp) rfl w y hw rfl
  have hcall : ∃ u, t.call y = .ok (u, x) := by
    obtain ⟨⟨u, x'⟩, h, h'⟩ := map_ok hx
    simp only at h'
    subst h'
    exact ⟨u, h⟩
  obtain ⟨u, hu⟩ := hcall
  have hu' := hu
  simp only [TF.setTimes] at ht
  obtain ⟨b1, hb1, ht⟩ := bind_ok ht
  simp only [pure, Except.pure, Except.ok.injEq] at ht
  subst ht
  obtain ⟨x1, ps, pe, -, hyt, hn, -, hpad, -, hX⟩ := c01_grid_length _ _ _ hb1
  simp only [call, bind, Except.bind, pure, Except.pure] at hu
  split at hu
  · simp at hu
  · split at hu
    · simp at hu
    · rename_i T hT
      split at hu
      · simp at hu
      · rename_i xx hxx
        simp only [Except.ok.injEq, Prod.mk.injEq] at hu
        obtain ⟨rfl, hxeq⟩ := hu
        obtain ⟨b2, hb2⟩ : ∃ b2, b1.setTimes [2, 2] = .ok b2 := by
          rw [c01_success_iff, (setTimes_base hb1).1]
          right
          simp [Base.init, specPadding]
        obtain ⟨x2, ps2, pe2, -, hyt2, hn2, -, hpad2, -, hX2⟩ := c01_grid_length _ _ _ hb2
        refine ⟨TF.matrix b1 none (exponentialTensor 1 1) none, _, TF.matrix b2 none (exponentialTensor 1 1)
          (some T), w, x, x, z', ?_, hu', ?_, hw, ?_, hz', ?_⟩
        · simp only [TF.setTimes, hb1, bind, Except.bind, pure, Except.pure]
        · simp only [TF.setTimes, hb2, bind, Except.bind, pure, Except.pure]
        · rw [run_matrix, checkRows_of hyt2 (by rw [hn2]; rfl)]
          simp only [getMatrix, bind, Except.bind, hxx, Except.map]
          rw [hxeq]
        · intro he
          have a := hm 0 0 (by rw [hy]; decide) (by decide) 0
          have b := hm' 0 0 (by rw [hy]; decide) (by decide) 0
          rw [he, b] at a
          have r0 : rowAt y 0 0 = 1 := by rw [hy]; rfl
          simp only [prevValue, expDecay, r0, if_true] at a
          have : Real.exp (-1) = Real.exp (-2) := by
            norm_num [Base.init] at a
          have := Real.exp_injective this
          norm_num at this

end
/-- **C15** The matrix properties of objects that got no times: the exponential saturation needs the width of a step and raises
TypeError, the oversampling matrix has no columns and only the padding as rows. -/
theorem c15_matrix_no_times (c : Nat) (rise : ℝ) (bound : Option Bound) (os ps pe : Nat) (hp : specPadding bound os = some (ps, pe)) :
    exponentialTensor c rise (Base.init ℝ bound os) = .error .typeError ∧
    ∃ T, oversamplingTensor c (Base.init ℝ bound os) = .ok T ∧ T.nx = ps + pe ∧ T.ny = 0 := by
  have hn : (Base.init ℝ bound os).numPadding = .ok (ps, pe) := by
    rcases bound with _ | ⟨code, k⟩
    · cases hp; rfl
    · cases code <;> cases hp <;> simp [Base.numPadding, Base.init, mul_comm]
  constructor
  · unfold exponentialTensor
    rw [hn]
    rfl
  · unfold oversamplingTensor
    rw [hn]
    refine ⟨_, rfl, ?_, rfl⟩
    simp [Tensor.ofRows, npZeros, npEye, npRepeat, Base.init]

example : exponentialTensor 2 1 (Base.init ℝ (some ⟨.n, 3⟩) 4) = .error .typeError ∧
    ∃ T, oversamplingTensor 2 (Base.init ℝ (some ⟨.n, 3⟩) 4) = .ok T ∧ T.nx = 6 ∧ T.ny = 0 :=
  c15_matrix_no_times 2 1 (some ⟨.n, 3⟩) 4 3 3 rfl

end Verif.Transfer
