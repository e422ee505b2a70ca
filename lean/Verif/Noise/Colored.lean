import Verif.Py
import Mathlib.Analysis.SpecialFunctions.Complex.Circle
import Mathlib.Analysis.SpecialFunctions.Pow.Real
import Mathlib.Data.Nat.Log
import Mathlib.Data.List.GetD
import Mathlib.Algebra.Field.GeomSum
import Mathlib.Algebra.BigOperators.Intervals
import Mathlib.Tactic.FieldSimp
import Mathlib.Tactic.Linarith
import Mathlib.Tactic.NormNum

/-!
# C76, C82 and C83: coloured noise (noise.py:251-310, 520-607)

The random generator is a parameter.  `np.fft.rfft` and `np.fft.irfft` are modelled by their defining sums.  The spectral density is
a function of one frequency (the code calls it with an array).  Not-a-number is modelled: when the root of a negative number is
taken the whole trace is `nan`, which is `none` here.
-/

namespace Verif.Noise
open Verif Complex Finset

/-- `np.fft.rfft` of a real sequence of length `n`, entry `k`. -/
noncomputable def rfft (x : Nat → ℝ) (n k : Nat) : ℂ := ∑ j ∈ range n, (x j : ℂ) * exp (-(2 * Real.pi * I * j * k / n))

/-- `np.fft.irfft(c, n=n)` for `n // 2 + 1` coefficients, entry `j`: the imaginary parts of the first coefficient, and of the last
one for even `n`, are ignored. -/
noncomputable def irfft (c : Nat → ℂ) (n j : Nat) : ℝ :=
  ((c 0).re + ∑ k ∈ Ico 1 ((n + 1) / 2), 2 * (c k * exp (2 * Real.pi * I * j * k / n)).re +
    if n % 2 = 0 then (c (n / 2)).re * (-1) ^ j else 0) / n

/-- `np.linspace(0, f_nyquist, n // 2 + 1)`, entry `k`. -/
noncomputable def freqGrid (dt : ℝ) (n k : Nat) : ℝ := k * ((1 / dt / 2 - 0) / ((n / 2 : Nat) : ℝ))

/-- The array `f` when the root is taken, noise.py:302-304. -/
noncomputable def density (S : ℝ → ℝ) (dt : ℝ) (n k : Nat) : ℝ := if k = 0 then 0 else S (freqGrid dt n k)

/-- `s0`, noise.py:291-293. -/
noncomputable def s0 (dt : ℝ) : ℝ := 1 / (1 / dt / 2)

/-- `actual_n_samples`, noise.py:294-297; `2 ** ceil(log2(0))` is `0.0`. -/
def actualN (n : Nat) (r_power_of_two : Bool) : Nat := if r_power_of_two then (if n = 0 then 0 else 2 ^ Nat.clog 2 n) else n

open Classical in
/-- One trace, noise.py:300-306, for the white noise `w`: `none` when a root of a negative number is taken. -/
noncomputable def colour (S : ℝ → ℝ) (dt : ℝ) (n : Nat) (w : Nat → ℝ) : Option (List ℝ) :=
  if ∃ k, k ≤ n / 2 ∧ density S dt n k / s0 dt < 0 then none
  else some ((List.range n).map fun j => irfft (fun k => rfft w n k * √(density S dt n k / s0 dt)) n j)

/-- `fast_colored_noise`, noise.py:291-310, for an output shape `(ops, traces)`; `randn` are the numbers drawn.  ZeroDivisionError for
`dt = 0`; ValueError for the Fourier transform of nothing. -/
noncomputable def fastColored (S : ℝ → ℝ) (dt : ℝ) (nSamples ops traces : Nat) (r_power_of_two : Bool) (randn : Nat → Nat → Nat → ℝ) :
    Except PyErr (List (List (Option (List ℝ)))) :=
  if dt = 0 then .error .zeroDivisionError
  else
    let n := actualN nSamples r_power_of_two
    if n = 0 then .error .valueError
    else .ok ((List.range ops).map fun a => (List.range traces).map fun b => colour S dt n (randn a b))

/-- The attributes of `NTGColoredNoise`; a missing count is `none`.  Simplification: `dt` is a scalar. -/
structure ColoredNoise where
  S : ℝ → ℝ
  dt : ℝ
  nSamples : Option Nat
  nTraces : Option Nat
  nOps : Option Nat
  ratio : Nat

/-- `NTGColoredNoise.__init__`, noise.py:569-589. -/
noncomputable def ColoredNoise.new (S : ℝ → ℝ) (dt : ℝ) (nSamples nTraces nOps : Option Nat) (ratio : Int) : Except PyErr ColoredNoise :=
  if ratio < 1 then .error .valueError else .ok { S, dt, nSamples, nTraces, nOps, ratio := ratio.toNat }

/-- `NTGColoredNoise._sample_noise`, noise.py:591-607.  Simplification: a count of `0` (where the properties would call this method
again without end) is a RecursionError. -/
noncomputable def ColoredNoise.draw (g : ColoredNoise) (randn : Nat → Nat → Nat → ℝ) : Except PyErr (List (List (Option (List ℝ)))) :=
  match g.nOps with
  | none => .error .valueError
  | some ops => match g.nTraces with
    | none => .error .valueError
    | some traces => match g.nSamples with
      | none => .error .valueError
      | some n =>
        if n = 0 ∨ ops = 0 ∨ traces = 0 then .error .runtimeError
        else match fastColored g.S g.dt (n * g.ratio) ops traces false randn with
          | .error e => .error e
          | .ok a => .ok (a.map fun m => m.map fun t => t.map fun l => l.take n)

/-! ## Fourier sums -/

theorem exp_sum {n : Nat} (hn : 0 < n) (m : ℤ) : ∑ j ∈ range n, exp (2 * Real.pi * I * j * m / n) = if (n : ℤ) ∣ m then (n : ℂ) else 0 := by
  have hn' : (n : ℂ) ≠ 0 := by exact_mod_cast hn.ne'
  have hpow : ∀ j : Nat, exp (2 * Real.pi * I * j * m / n) = exp (2 * Real.pi * I * m / n) ^ j := by
    intro j
    rw [← Complex.exp_nat_mul]
    congr 1
    ring
  simp only [hpow]
  by_cases h : (n : ℤ) ∣ m
  · obtain ⟨q, rfl⟩ := h
    have : exp (2 * Real.pi * I * ((n : ℤ) * q : ℤ) / n) = 1 := by
      rw [Complex.exp_eq_one_iff]
      exact ⟨q, by push_cast; field_simp⟩
    rw [sum_congr rfl fun j _ => by rw [this, one_pow]]
    simp
  · rw [if_neg h]
    have hne : exp (2 * Real.pi * I * m / n) ≠ 1 := by
      intro h1
      rw [Complex.exp_eq_one_iff] at h1
      obtain ⟨q, hq⟩ := h1
      apply h
      refine ⟨q, ?_⟩
      have hpi : (2 * Real.pi * I : ℂ) ≠ 0 := Complex.two_pi_I_ne_zero
      have : (m : ℂ) = n * q := by
        have h2 : (2 * Real.pi * I : ℂ) * m = (2 * Real.pi * I) * (n * q) := by
          field_simp at hq
          linear_combination (2 * Real.pi * I) * hq
        exact mul_left_cancel₀ hpi h2
      exact_mod_cast this
    rw [geom_sum_eq hne, ← Complex.exp_nat_mul]
    have : exp (n * (2 * Real.pi * I * m / n)) = 1 := by
      rw [Complex.exp_eq_one_iff]
      exact ⟨m, by field_simp⟩
    rw [this]
    simp

theorem two_re (z : ℂ) : (2 * z.re : ℂ) = z + (starRingEnd ℂ) z := by
  rw [Complex.add_conj]; push_cast; ring

theorem conj_exp (x : ℝ) : (starRingEnd ℂ) (exp (x * I)) = exp (-(x * I)) := by
  rw [← Complex.exp_conj]
  simp

/-- The Fourier coefficients of the inverse transform. -/
theorem rfft_irfft (c : Nat → ℂ) {n : Nat} (hn : 0 < n) (k : Nat) (hk : k ≤ n / 2) (h0 : (c 0).im = 0)
    (hlast : n % 2 = 0 → (c (n / 2)).im = 0) : rfft (fun j => irfft c n j) n k = c k := by
  have hn' : (n : ℂ) ≠ 0 := by exact_mod_cast hn.ne'
  have hterm : ∀ j : Nat, (irfft c n j : ℂ) * exp (-(2 * Real.pi * I * j * k / n)) * n =
      (c 0).re * exp (2 * Real.pi * I * j * ((-(k : ℤ) : ℤ)) / n) +
      ∑ l ∈ Ico 1 ((n + 1) / 2), (c l * exp (2 * Real.pi * I * j * (((l : ℤ) - k : ℤ)) / n) +
        (starRingEnd ℂ) (c l) * exp (2 * Real.pi * I * j * ((-(l : ℤ) - k : ℤ)) / n)) +
      if n % 2 = 0 then (c (n / 2)).re * exp (2 * Real.pi * I * j * ((((n / 2 : Nat) : ℤ) - k : ℤ)) / n) else 0 := by
    intro j
    have e0 : exp (-(2 * Real.pi * I * j * k / n)) = exp (2 * Real.pi * I * j * ((-(k : ℤ) : ℤ)) / n) := by
      congr 1; push_cast; ring
    obtain ⟨M, hM⟩ : ∃ M : ℤ, M = ((n / 2 : Nat) : ℤ) - k := ⟨_, rfl⟩
    rw [← hM]
    unfold irfft
    push_cast
    rw [div_mul_eq_mul_div, div_mul_cancel₀ _ hn', add_mul, add_mul, sum_mul]
    congr 1
    · congr 1
      · rw [e0]; push_cast; ring_nf
      · refine sum_congr rfl fun l _ => ?_
        rw [two_re, map_mul, add_mul]
        have e1 : (starRingEnd ℂ) (exp (2 * Real.pi * I * j * l / n)) = exp (-(2 * Real.pi * I * j * l / n)) := by
          have : (2 * Real.pi * I * j * l / n : ℂ) = ((2 * Real.pi * j * l / n : ℝ) : ℂ) * I := by push_cast; ring
          rw [this, conj_exp]
        rw [e1, mul_assoc (c l), mul_assoc ((starRingEnd ℂ) (c l)), ← Complex.exp_add, ← Complex.exp_add]
        congr 3 <;> ring
    · split
      · next hev =>
        have h2 : ((n / 2 : Nat) : ℂ) = n / 2 := by
          have : n = 2 * (n / 2) := by omega
          have h3 : (n : ℂ) = 2 * ((n / 2 : Nat) : ℂ) := by exact_mod_cast this
          rw [h3]; ring
        have e2 : ((-1 : ℂ)) ^ j = exp (Real.pi * I * j) := by
          rw [mul_comm, Complex.exp_nat_mul, Complex.exp_pi_mul_I]
        have hMc : (M : ℂ) = n / 2 - k := by
          rw [hM, Int.cast_sub, Int.cast_natCast, Int.cast_natCast, h2]
        push_cast
        rw [e2, mul_assoc, ← Complex.exp_add, hMc]
        congr 2
        field_simp
        ring
      · simp
  have hsum : rfft (fun j => irfft c n j) n k * n = c k * n := by
    unfold rfft
    rw [sum_mul]
    rw [sum_congr rfl fun j _ => hterm j, sum_add_distrib, sum_add_distrib, ← mul_sum, exp_sum hn, sum_comm]
    have hd0 : ((n : ℤ) ∣ (-(k : ℤ))) ↔ k = 0 := by
      constructor
      · rintro ⟨q, hq⟩
        have hq0 : q = 0 := by nlinarith [hq, (by omega : (k : ℤ) < n), (by omega : (0 : ℤ) ≤ k)]
        subst hq0
        omega
      · rintro rfl; simp
    have hinner : ∀ l ∈ Ico 1 ((n + 1) / 2), ∑ j ∈ range n, (c l * exp (2 * Real.pi * I * j * (((l : ℤ) - k : ℤ)) / n) +
        (starRingEnd ℂ) (c l) * exp (2 * Real.pi * I * j * ((-(l : ℤ) - k : ℤ)) / n)) = if l = k then c k * n else 0 := by
      intro l hl
      rw [mem_Ico] at hl
      rw [sum_add_distrib, ← mul_sum, ← mul_sum, exp_sum hn, exp_sum hn]
      have h1 : ((n : ℤ) ∣ ((l : ℤ) - k)) ↔ l = k := by
        constructor
        · rintro ⟨q, hq⟩
          have hq0 : q = 0 := by
            have a1 : (l : ℤ) - k < n := by omega
            have a2 : -(n : ℤ) < (l : ℤ) - k := by omega
            rw [hq] at a1 a2
            have hn2 : (0 : ℤ) < n := by omega
            have b1 : q < 1 := by nlinarith
            have b2 : -1 < q := by nlinarith
            omega
          subst hq0; omega
        · rintro rfl; simp
      have h2 : ¬ ((n : ℤ) ∣ (-(l : ℤ) - k)) := by
        rintro ⟨q, hq⟩
        have a1 : -(l : ℤ) - k < 0 := by omega
        have a2 : -(n : ℤ) < -(l : ℤ) - k := by omega
        rw [hq] at a1 a2
        have hn2 : (0 : ℤ) < n := by omega
        have b1 : q < 0 := by nlinarith
        have b2 : -1 < q := by nlinarith
        omega
      rw [if_neg h2]
      by_cases h : l = k
      · rw [if_pos (h1.2 h), if_pos h, h]; ring
      · rw [if_neg (fun hc => h (h1.1 hc)), if_neg h]; ring
    rw [sum_congr rfl hinner, sum_ite_eq']
    have hlastsum : (∑ j ∈ range n, if n % 2 = 0 then ((c (n / 2)).re : ℂ) * exp (2 * Real.pi * I * j * ((((n / 2 : Nat) : ℤ) - k : ℤ)) / n)
        else 0) = if n % 2 = 0 ∧ k = n / 2 then c k * n else 0 := by
      by_cases hev : n % 2 = 0
      · simp only [hev, if_true, true_and]
        rw [← mul_sum, exp_sum hn]
        by_cases hk2 : k = n / 2
        · rw [if_pos hk2, if_pos (by rw [hk2]; simp), ← hk2]
          congr 1
          have := hlast hev
          rw [← hk2] at this
          exact Complex.ext rfl (by simp [this])
        · rw [if_neg hk2, if_neg, mul_zero]
          rintro ⟨q, hq⟩
          have a1 : ((n / 2 : Nat) : ℤ) - k < n := by omega
          have a2 : 0 < ((n / 2 : Nat) : ℤ) - k := by omega
          rw [hq] at a1 a2
          have hn2 : (0 : ℤ) < n := by omega
          have b1 : q < 1 := by nlinarith
          have b2 : 0 < q := by nlinarith
          omega
      · simp [hev]
    rw [hlastsum]
    by_cases hk0 : k = 0
    · subst hk0
      rw [if_pos (hd0.2 rfl), if_neg (by simp)]
      have hre : ((c 0).re : ℂ) = c 0 := Complex.ext rfl (by simp [h0])
      rw [hre]
      by_cases hz : n % 2 = 0 ∧ 0 = n / 2
      · omega
      · rw [if_neg hz]; ring
    · rw [if_neg (fun hc => hk0 (hd0.1 hc))]
      by_cases hin : k ∈ Ico 1 ((n + 1) / 2)
      · rw [if_pos hin]
        rw [mem_Ico] at hin
        rw [if_neg (by omega)]
        ring
      · rw [if_neg hin]
        rw [mem_Ico] at hin
        rw [if_pos (by omega)]
        ring
  exact mul_right_cancel₀ hn' hsum

theorem rfft_zero (x : Nat → ℝ) (n : Nat) : rfft x n 0 = ((∑ j ∈ range n, x j : ℝ) : ℂ) := by
  simp [rfft]

theorem rfft_last_im (x : Nat → ℝ) (n : Nat) (hn : 0 < n) (hev : n % 2 = 0) : (rfft x n (n / 2)).im = 0 := by
  unfold rfft
  rw [Complex.im_sum]
  refine sum_eq_zero fun j _ => ?_
  have hn' : (n : ℂ) ≠ 0 := by exact_mod_cast hn.ne'
  have h2 : ((n / 2 : Nat) : ℂ) = n / 2 := by
    have : n = 2 * (n / 2) := by omega
    have h3 : (n : ℂ) = 2 * ((n / 2 : Nat) : ℂ) := by exact_mod_cast this
    rw [h3]; ring
  have : exp (-(2 * Real.pi * I * j * (n / 2 : Nat) / n)) = (((-1) ^ j : ℝ) : ℂ) := by
    have e1 : (-(2 * Real.pi * I * j * (n / 2 : Nat) / n) : ℂ) = j * (-(Real.pi * I)) := by
      rw [h2]; field_simp
    rw [e1, Complex.exp_nat_mul, Complex.exp_neg, Complex.exp_pi_mul_I]
    push_cast
    norm_num
  rw [this, ← Complex.ofReal_mul, Complex.ofReal_im]

theorem sum_list_range (f : Nat → ℝ) (n : Nat) : ((List.range n).map f).sum = ∑ j ∈ range n, f j := by
  induction n with
  | zero => simp
  | succ n ih => rw [List.range_succ, List.map_append, List.sum_append, ih, sum_range_succ]; simp

theorem colour_coeff_im (S : ℝ → ℝ) (dt : ℝ) {n : Nat} (hn : 0 < n) (w : Nat → ℝ) (r : Nat → ℝ) :
    ((rfft w n 0 * (r 0 : ℂ)).im = 0) ∧ (n % 2 = 0 → (rfft w n (n / 2) * (r (n / 2) : ℂ)).im = 0) := by
  constructor
  · rw [rfft_zero, ← Complex.ofReal_mul, Complex.ofReal_im]
  · intro hev
    rw [Complex.mul_im, rfft_last_im w n hn hev]
    simp

/-- The Fourier coefficients of a coloured trace. -/
theorem colour_rfft (S : ℝ → ℝ) (dt : ℝ) {n : Nat} (hn : 0 < n) (w : Nat → ℝ) (l : List ℝ) (h : colour S dt n w = some l) (k : Nat)
    (hk : k ≤ n / 2) : rfft (fun j => l.getD j 0) n k = rfft w n k * √(density S dt n k / s0 dt) := by
  unfold colour at h
  split at h
  · cases h
  · cases h
    obtain ⟨h1, h2⟩ := colour_coeff_im S dt hn w fun k => √(density S dt n k / s0 dt)
    rw [← rfft_irfft (fun k => rfft w n k * √(density S dt n k / s0 dt)) hn k hk h1 h2]
    unfold rfft
    refine sum_congr rfl fun j hj => ?_
    have hj' : j < n := mem_range.1 hj
    congr 2
    simp [List.getD_eq_getElem?_getD, List.getElem?_map, List.getElem?_range hj']

/-! ## C76 -/

/-- **C76** (no DC component): every trace of `fast_colored_noise` sums to zero, for every spectral density, every random input and
every length. -/
theorem c76_sum_zero (S : ℝ → ℝ) (dt : ℝ) (nSamples ops traces : Nat) (r : Bool) (randn : Nat → Nat → Nat → ℝ)
    (a : List (List (Option (List ℝ)))) (h : fastColored S dt nSamples ops traces r randn = .ok a) (m : List (Option (List ℝ)))
    (hm : m ∈ a) (l : List ℝ) (hl : some l ∈ m) : l.sum = 0 := by
  unfold fastColored at h
  split at h
  · cases h
  · simp only at h
    split at h
    · cases h
    · next hn =>
      cases h
      obtain ⟨i, _, rfl⟩ := List.mem_map.1 hm
      obtain ⟨j, _, hc⟩ := List.mem_map.1 hl
      have hn : 0 < actualN nSamples r := Nat.pos_of_ne_zero hn
      have h0 := colour_rfft S dt hn _ l hc 0 (Nat.zero_le _)
      rw [rfft_zero] at h0
      simp only [density, if_true, zero_div, Real.sqrt_zero, Complex.ofReal_zero, mul_zero] at h0
      have h1 : ∑ j ∈ range (actualN nSamples r), l.getD j 0 = 0 := by exact_mod_cast h0
      have hlen : l.length = actualN nSamples r := by
        unfold colour at hc
        split at hc
        · cases hc
        · cases hc; simp
      rw [← h1, ← sum_list_range, ← hlen]
      congr 1
      refine List.ext_getElem (by simp) fun k k1 k2 => ?_
      simp [List.getElem?_eq_getElem k1]

/-- The shape of the output, and what makes it fail. -/
theorem c76_shape (S : ℝ → ℝ) (dt : ℝ) (nSamples ops traces : Nat) (r : Bool) (randn : Nat → Nat → Nat → ℝ) :
    (dt = 0 → fastColored S dt nSamples ops traces r randn = .error .zeroDivisionError) ∧
    (dt ≠ 0 → nSamples = 0 → fastColored S dt nSamples ops traces r randn = .error .valueError) ∧
    (dt ≠ 0 → nSamples ≠ 0 → ∃ a, fastColored S dt nSamples ops traces r randn = .ok a ∧ a.length = ops ∧
      ∀ m ∈ a, m.length = traces ∧ ∀ l, some l ∈ m → l.length = if r then 2 ^ Nat.clog 2 nSamples else nSamples) := by
  refine ⟨fun h => by unfold fastColored; rw [if_pos h], fun h h0 => ?_, fun h h0 => ?_⟩
  · unfold fastColored
    rw [if_neg h]
    subst h0
    cases r <;> simp [actualN]
  · have hN : actualN nSamples r = if r then 2 ^ Nat.clog 2 nSamples else nSamples := by
      unfold actualN; cases r <;> simp [h0]
    have hne : actualN nSamples r ≠ 0 := by
      rw [hN]; cases r
      · simpa using h0
      · simp
    refine ⟨_, by unfold fastColored; rw [if_neg h]; simp only; rw [if_neg hne], by simp, fun m hm => ?_⟩
    obtain ⟨i, _, rfl⟩ := List.mem_map.1 hm
    refine ⟨by simp, fun l hl => ?_⟩
    obtain ⟨j, _, hc⟩ := List.mem_map.1 hl
    unfold colour at hc
    split at hc
    · cases hc
    · cases hc; simp [hN]

/-- **C76** (partial, length): without `r_power_of_two`, and with it for powers of two, the traces have the documented length.
Missing: other lengths with `r_power_of_two`, see `c76_violated`. -/
theorem c76_length_partial (S : ℝ → ℝ) (dt : ℝ) (nSamples ops traces : Nat) (r : Bool) (hr : r = false ∨ ∃ p, nSamples = 2 ^ p)
    (randn : Nat → Nat → Nat → ℝ) (a : List (List (Option (List ℝ)))) (h : fastColored S dt nSamples ops traces r randn = .ok a)
    (m : List (Option (List ℝ))) (hm : m ∈ a) (l : List ℝ) (hl : some l ∈ m) : l.length = nSamples := by
  obtain ⟨h1, h2, h3⟩ := c76_shape S dt nSamples ops traces r randn
  by_cases hdt : dt = 0
  · rw [h1 hdt] at h; cases h
  · by_cases hn : nSamples = 0
    · rw [h2 hdt hn] at h; cases h
    · obtain ⟨a', e1, _, e2⟩ := h3 hdt hn
      rw [e1] at h
      cases h
      rw [(e2 m hm).2 l hl]
      rcases hr with rfl | ⟨p, rfl⟩
      · rfl
      · have : Nat.clog 2 (2 ^ p) = p := Nat.clog_pow 2 p (by norm_num)
        rw [this]; cases r <;> rfl

/-- **C76** fails with `r_power_of_two` for every number that is not a power of two: the traces are longer than requested (the
documentation promises the largest power of two below). -/
theorem c76_violated (S : ℝ → ℝ) (dt : ℝ) (nSamples ops traces : Nat) (hp : ∀ p, nSamples ≠ 2 ^ p)
    (randn : Nat → Nat → Nat → ℝ) (a : List (List (Option (List ℝ)))) (h : fastColored S dt nSamples ops traces true randn = .ok a)
    (m : List (Option (List ℝ))) (hm : m ∈ a) (l : List ℝ) (hl : some l ∈ m) : nSamples < l.length := by
  obtain ⟨h1, h2, h3⟩ := c76_shape S dt nSamples ops traces true randn
  by_cases hdt : dt = 0
  · rw [h1 hdt] at h; cases h
  · by_cases hn : nSamples = 0
    · rw [h2 hdt hn] at h; cases h
    · obtain ⟨a', e1, _, e2⟩ := h3 hdt hn
      rw [e1] at h
      cases h
      rw [(e2 m hm).2 l hl, if_pos rfl]
      exact Nat.lt_of_le_of_ne (Nat.le_pow_clog (by norm_num) _) (hp _)

/-- A run with three samples and constant density: it succeeds, the traces are numbers, and with rounding they have length four. -/
example : ∃ a l, fastColored (fun _ => 1) 1 3 1 1 true (fun _ _ j => j) = .ok a ∧ [some l] ∈ a ∧ l.length = 4 := by
  have hN : actualN 3 true = 4 := by decide
  have hneg : ¬ ∃ k, k ≤ 4 / 2 ∧ density (fun _ => 1) 1 4 k / s0 1 < 0 := by
    rintro ⟨k, _, hk⟩
    have : (0 : ℝ) ≤ density (fun _ => 1) 1 4 k / s0 1 := by
      unfold density s0
      split <;> norm_num
    linarith
  have hc : ∃ l, colour (fun _ => 1) 1 4 (fun j => (j : ℝ)) = some l ∧ l.length = 4 :=
    ⟨_, by unfold colour; rw [if_neg hneg], by simp⟩
  obtain ⟨l, h1, h2⟩ := hc
  refine ⟨[[colour (fun _ => 1) 1 4 (fun j => (j : ℝ))]], l, ?_, by rw [h1]; simp, h2⟩
  unfold fastColored
  rw [if_neg one_ne_zero]
  simp only [hN]
  rfl

/-! ## C82: the spectrum -/

/-- Specification: the power of a sequence at frequency `k / (n dt)`. -/
noncomputable def power (x : Nat → ℝ) (n k : Nat) : ℝ := ‖rfft x n k‖ ^ 2

theorem density_pos_power (S : ℝ → ℝ) (dt : ℝ) {n : Nat} (hn : 0 < n) (w : Nat → ℝ) (l : List ℝ) (h : colour S dt n w = some l)
    (k : Nat) (hk0 : 0 < k) (hk : k ≤ n / 2) :
    power (fun j => l.getD j 0) n k = S (freqGrid dt n k) * (1 / dt / 2) * power w n k := by
  have hnn : 0 ≤ density S dt n k / s0 dt := by
    unfold colour at h
    split at h
    · cases h
    · next hneg => push Not at hneg; exact hneg k hk
  unfold power
  rw [colour_rfft S dt hn w l h k hk, norm_mul, Complex.norm_real, Real.norm_of_nonneg (Real.sqrt_nonneg _), mul_pow,
    Real.sq_sqrt hnn]
  unfold density s0
  rw [if_neg (by omega)]
  rw [div_div_eq_mul_div, div_one]
  ring

/-- **C82** (partial): for an even number of samples the power of a coloured trace at the frequency `f = k / (n dt)` is the power of
the white noise times `S f` times the Nyquist frequency, for every frequency up to the Nyquist frequency.
Missing: odd numbers of samples, see `c82_violated`. -/
theorem c82_spectrum_partial (S : ℝ → ℝ) (dt : ℝ) (hdt : dt ≠ 0) {n : Nat} (hn : 0 < n) (hev : n % 2 = 0) (w : Nat → ℝ) (l : List ℝ)
    (h : colour S dt n w = some l) (k : Nat) (hk0 : 0 < k) (hk : k ≤ n / 2) :
    power (fun j => l.getD j 0) n k = S (k / (n * dt)) * (1 / (2 * dt)) * power w n k := by
  rw [density_pos_power S dt hn w l h k hk0 hk]
  have h2 : ((n / 2 : Nat) : ℝ) = n / 2 := by
    have : n = 2 * (n / 2) := by omega
    have h3 : (n : ℝ) = 2 * ((n / 2 : Nat) : ℝ) := by exact_mod_cast this
    rw [h3]; ring
  have hn' : (n : ℝ) ≠ 0 := by exact_mod_cast hn.ne'
  have : freqGrid dt n k = k / (n * dt) := by
    unfold freqGrid
    rw [h2]
    field_simp
    ring
  rw [this]
  congr 2
  field_simp

/-- For an odd number of samples the density is taken at the wrong frequency `k / ((n - 1) dt)`. -/
theorem c82_odd_value (S : ℝ → ℝ) (dt : ℝ) (hdt : dt ≠ 0) {n : Nat} (hn : 1 < n) (hodd : n % 2 = 1) (w : Nat → ℝ) (l : List ℝ)
    (h : colour S dt n w = some l) (k : Nat) (hk0 : 0 < k) (hk : k ≤ n / 2) :
    power (fun j => l.getD j 0) n k = S (k / ((n - 1) * dt)) * (1 / (2 * dt)) * power w n k := by
  rw [density_pos_power S dt (by omega) w l h k hk0 hk]
  have h2 : ((n / 2 : Nat) : ℝ) = (n - 1) / 2 := by
    have : n = 2 * (n / 2) + 1 := by omega
    have h3 : (n : ℝ) = 2 * ((n / 2 : Nat) : ℝ) + 1 := by exact_mod_cast this
    rw [h3]; ring
  have hn' : (n : ℝ) - 1 ≠ 0 := by
    have : (1 : ℝ) < n := by exact_mod_cast hn
    linarith
  have : freqGrid dt n k = k / ((n - 1) * dt) := by
    unfold freqGrid
    rw [h2]
    field_simp
    ring
  rw [this]
  congr 2
  field_simp

/-- **C82** fails for odd numbers of samples: for every odd length `n > 1`, a spectral density with support between the right and
the wrong frequency gives a trace without power where the density vanishes not. -/
theorem c82_violated (dt : ℝ) (hdt : 0 < dt) {n : Nat} (hn : 1 < n) (hodd : n % 2 = 1) (w : Nat → ℝ) (k : Nat) (hk0 : 0 < k)
    (hk : k ≤ n / 2) (hw : power w n k ≠ 0) :
    ∃ S : ℝ → ℝ, (∀ f, 0 ≤ S f) ∧ ∃ l, colour S dt n w = some l ∧
      power (fun j => l.getD j 0) n k ≠ S (k / (n * dt)) * (1 / (2 * dt)) * power w n k := by
  classical
  refine ⟨fun f => if f = k / (n * dt) then 1 else 0, fun f => by dsimp only; split <;> norm_num, ?_⟩
  have hnn : ¬ ∃ k', k' ≤ n / 2 ∧ density (fun f => if f = k / (n * dt) then 1 else 0) dt n k' / s0 dt < 0 := by
    rintro ⟨k', _, hneg⟩
    have : 0 ≤ density (fun f => if f = k / (n * dt) then 1 else 0) dt n k' / s0 dt := by
      refine div_nonneg ?_ (by unfold s0; positivity)
      unfold density
      split
      · exact le_refl _
      · dsimp only; split <;> norm_num
    linarith
  refine ⟨_, by unfold colour; rw [if_neg hnn], ?_⟩
  have hval := c82_odd_value (fun f => if f = k / (n * dt) then 1 else 0) dt hdt.ne' hn hodd w _
    (by unfold colour; rw [if_neg hnn]) k hk0 hk
  rw [hval]
  have h1 : (1 : ℝ) < n := by exact_mod_cast hn
  have hkpos : (0 : ℝ) < k := by exact_mod_cast hk0
  have hne : (k : ℝ) / ((n - 1) * dt) ≠ k / (n * dt) := by
    intro hc
    have h3 : (n : ℝ) - 1 ≠ 0 := by linarith
    rw [div_eq_div_iff (by positivity) (by positivity)] at hc
    have : (k : ℝ) * dt = 0 := by linear_combination hc
    have : 0 < (k : ℝ) * dt := by positivity
    linarith
  dsimp only
  rw [if_neg hne, if_pos rfl]
  intro hc
  have h5 : (1 : ℝ) / (2 * dt) ≠ 0 := by positivity
  simp only [zero_mul, one_mul] at hc
  rcases mul_eq_zero.1 hc.symm with h6 | h6
  · exact h5 h6
  · exact hw h6

/-! ## C83: the generator -/

/-- **C83**: the samples of a coloured noise generator have the shape (operators, traces, samples per trace), whatever the
low-frequency extension. -/
theorem c83_shape (S : ℝ → ℝ) (dt : ℝ) (hdt : dt ≠ 0) (n traces ops : Nat) (hn : 0 < n) (ht : 0 < traces) (ho : 0 < ops) (ratio : Int)
    (hr : 1 ≤ ratio) (randn : Nat → Nat → Nat → ℝ) :
    ∃ g a, ColoredNoise.new S dt (some n) (some traces) (some ops) ratio = .ok g ∧ g.draw randn = .ok a ∧ a.length = ops ∧
      ∀ m ∈ a, m.length = traces ∧ ∀ l, some l ∈ m → l.length = n := by
  obtain ⟨-, -, h3⟩ := c76_shape S dt (n * ratio.toNat) ops traces false randn
  have hrn : 1 ≤ ratio.toNat := by omega
  have hle : n ≤ n * ratio.toNat := Nat.le_mul_of_pos_right n hrn
  obtain ⟨a, h4, h5, h6⟩ := h3 hdt (by omega)
  refine ⟨⟨S, dt, some n, some traces, some ops, ratio.toNat⟩, _, by unfold ColoredNoise.new; rw [if_neg (by omega)], by
    unfold ColoredNoise.draw
    simp only
    rw [if_neg (by omega), h4], by simpa using h5, fun m hm => ?_⟩
  obtain ⟨m', hm', rfl⟩ := List.mem_map.1 hm
  refine ⟨by simpa using (h6 m' hm').1, fun l hl => ?_⟩
  obtain ⟨t, ht', hl'⟩ := List.mem_map.1 hl
  cases t with
  | none => simp at hl'
  | some l' =>
    simp only [Option.map_some, Option.some.injEq] at hl'
    subst hl'
    have := (h6 m' hm').2 l' ht'
    simp only [Bool.false_eq_true, if_false] at this
    rw [List.length_take, this, Nat.min_eq_left hle]

/-- **C83** (independence of the extension): the samples are the beginning of the longer trace that `fast_colored_noise` gives. -/
theorem c83_prefix (S : ℝ → ℝ) (dt : ℝ) (n traces ops : Nat) (hn : 0 < n) (ht : 0 < traces) (ho : 0 < ops) (ratio : Int)
    (hr : 1 ≤ ratio) (randn : Nat → Nat → Nat → ℝ) (g : ColoredNoise)
    (hg : ColoredNoise.new S dt (some n) (some traces) (some ops) ratio = .ok g) :
    g.draw randn = (fastColored S dt (n * ratio.toNat) ops traces false randn).map
      fun a => a.map fun m => m.map fun t => t.map fun l => l.take n := by
  unfold ColoredNoise.new at hg
  rw [if_neg (by omega)] at hg
  cases hg
  unfold ColoredNoise.draw
  simp only
  rw [if_neg (by omega)]
  cases fastColored S dt (n * ratio.toNat) ops traces false randn <;> rfl

/-- **C83** Every trace comes from its own numbers: trace `b` of operator `a` is what a generator for a single trace makes of the
numbers with these indices. -/
theorem c83_own_numbers (S : ℝ → ℝ) (dt : ℝ) (nSamples ops traces : Nat) (r : Bool) (randn : Nat → Nat → Nat → ℝ)
    (x : List (List (Option (List ℝ)))) (hx : fastColored S dt nSamples ops traces r randn = .ok x) (a b : Nat) (ha : a < ops)
    (hb : b < traces) :
    ∃ t, fastColored S dt nSamples 1 1 r (fun _ _ => randn a b) = .ok [[t]] ∧ (x[a]?).bind (fun m => m[b]?) = some t := by
  unfold fastColored at hx ⊢
  by_cases h : dt = 0
  · simp [h] at hx
  · rw [if_neg h] at hx ⊢
    simp only at hx ⊢
    split at hx
    · simp at hx
    · rename_i h0
      simp only [Except.ok.injEq] at hx
      subst hx
      rw [if_neg h0]
      exact ⟨colour S dt (actualN nSamples r) (randn a b), rfl, by simp [ha, hb]⟩

/-- Rejected arguments: extension ratios below one, missing counts. -/
theorem c83_rejects (S : ℝ → ℝ) (dt : ℝ) (n traces ops : Option Nat) (ratio : Int) (randn : Nat → Nat → Nat → ℝ) :
    (ratio < 1 → ColoredNoise.new S dt n traces ops ratio = .error .valueError) ∧
    (1 ≤ ratio → (n = none ∨ traces = none ∨ ops = none) → ∃ g, ColoredNoise.new S dt n traces ops ratio = .ok g ∧
      g.draw randn = .error .valueError) := by
  constructor
  · intro h; unfold ColoredNoise.new; rw [if_pos h]
  · intro h hmiss
    refine ⟨_, by unfold ColoredNoise.new; rw [if_neg (by omega)], ?_⟩
    unfold ColoredNoise.draw
    cases ops with
    | none => rfl
    | some o => cases traces with
      | none => rfl
      | some t => cases n with
        | none => rfl
        | some n => simp at hmiss

/-- A generator with two operators, three traces of four samples and fivefold extension. -/
example : ∃ g a, ColoredNoise.new (fun f => f) 1 (some 4) (some 3) (some 2) 5 = .ok g ∧ g.draw (fun _ _ _ => 1) = .ok a ∧ a.length = 2 := by
  obtain ⟨g, a, h1, h2, h3, -⟩ := c83_shape (fun f => f) 1 one_ne_zero 4 3 2 (by norm_num) (by norm_num) (by norm_num) 5 (by norm_num)
    (fun _ _ _ => 1)
  exact ⟨g, a, h1, h2, h3⟩

/-- A case of `c83_own_numbers`: the numbers differ from trace to trace. -/
example : ∃ x t, fastColored (fun _ => 1) 1 3 2 2 false (fun a b k => a + 2 * b + 4 * k) = .ok x ∧
    fastColored (fun _ => 1) 1 3 1 1 false (fun _ _ k => 3 + 4 * k) = .ok [[t]] ∧ (x[1]?).bind (fun m => m[1]?) = some t := by
  obtain ⟨x, hx, -⟩ := (c76_shape (fun _ => 1) 1 3 2 2 false (fun a b k => a + 2 * b + 4 * k)).2.2 one_ne_zero (by norm_num)
  obtain ⟨t, h1, h2⟩ := c83_own_numbers _ 1 3 2 2 false _ x hx 1 1 (by norm_num) (by norm_num)
  refine ⟨x, t, hx, ?_, h2⟩
  rw [← h1]
  congr
  funext _ _ k
  norm_num

end Verif.Noise
