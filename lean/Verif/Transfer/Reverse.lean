import Verif.Transfer.ExponentialThms
import Mathlib.Tactic.FieldSimp

/-!
# C105: recovering the pulse from the smoothed amplitudes

`ExponentialMTF.reverse_state` (transfer_function.py:1565-1612) reads the attributes `xtimes` and `start_value`, which no method of the
class or its base classes sets; they are arguments of the model (`none`: the attribute does not exist).
-/

namespace Verif.Transfer
open Verif TF

variable {c : Nat}

/-! ## Model -/

/-- The attributes of the object which `reverse_state` uses in addition to `_num_y` and `awg_rise_time`. -/
structure OldAttrs where
  xtimes : Option (List ℝ)
  startValue : Option ℝ

/-- What `ExponentialMTF.__init__` and `set_times` leave behind, transfer_function.py:1420-1429, 259-279, 351-398. -/
def OldAttrs.new : OldAttrs := ⟨none, none⟩

/-- The loop over `i` for one control, transfer_function.py:1599-1604: `e` is `exp`, `a` the amplitudes at the first sample of each
step. -/
noncomputable def unsmooth (e s : ℝ) (a : Nat → ℝ) : Nat → ℝ
  | 0 => (a 0 - s) / (1 - e) + s
  | i + 1 => (a (i + 1) - unsmooth e s a i) / (1 - e) + unsmooth e s a i

/-- `self.xtimes[1] - self.xtimes[0]`, transfer_function.py:1578. -/
def OldAttrs.xtau (att : OldAttrs) : Except PyErr ℝ := match att.xtimes with
  | none => .error .attributeError
  | some (a :: b :: _) => .ok (b - a)
  | some _ => .error .indexError

/-- `int(round(r))` of a finite number, transfer_function.py:1584: to the nearest integer, to the even one in the middle. -/
noncomputable def pyRound (r : ℝ) : ℤ :=
  if r - ⌊r⌋ < 1 / 2 then ⌊r⌋ else if 1 / 2 < r - ⌊r⌋ then ⌊r⌋ + 1 else if Even ⌊r⌋ then ⌊r⌋ else ⌊r⌋ + 1

/-- The loop over the controls, transfer_function.py:1595-1604: the amplitudes are indexed by `i * oversampling`.  Not modelled: a
vanishing `1 - exp` or rise time (inf or nan). -/
noncomputable def unsmoothAll (rise xtau : ℝ) (start : Option ℝ) (x : Pulse ℝ c) (os numX : Nat) : Except PyErr (Pulse ℝ c) :=
  if c = 0 then .ok (List.replicate numX fun _ => 0)
  else if x.length = 0 then .error .indexError
  else match start with
    | none => .error .attributeError
    | some s =>
      if numX = 0 then .error .indexError
      else if x.length ≤ (numX - 1) * os then .error .indexError
      else
        let e := Real.exp (-(1 / os * xtau / rise))
        .ok ((List.range numX).map fun i k => unsmooth e s (fun i => rowAt x (i * os) k) i)

/-- `ExponentialMTF.reverse_state(amplitudes, times)`, transfer_function.py:1565-1612.  The amplitudes are missing (`None.shape`), there
are fewer than two times, the times are all that determines the oversampling (a spacing of zero makes the quotient inf or nan, a negative
quotient the number of rows), or `_num_y` determines it. -/
noncomputable def reverseState (rise : ℝ) (numY : Nat) (att : OldAttrs) (amplitudes : Option (Pulse ℝ c)) (times : Option (List ℝ) := none) :
    Except PyErr (Pulse ℝ c) :=
  match amplitudes with
  | none => .error .attributeError
  | some x => do
    let xtau ← att.xtau
    match times with
    | some (t₀ :: t₁ :: ts) =>
      if t₁ - t₀ = 0 then .error (if xtau = 0 then .valueError else .overflowError)
      else
        let os := pyRound (xtau / (t₁ - t₀))
        if os = 0 then .error .zeroDivisionError
        else if os < 0 then .error .valueError
        else unsmoothAll rise xtau att.startValue x os.toNat ((ts.length + 2) / os.toNat)
    | some _ => .ok x
    | none =>
      if c = 0 ∨ numY = 0 then .error .zeroDivisionError
      else
        let os := x.length / numY
        if os = 0 then .error .zeroDivisionError
        else unsmoothAll rise xtau att.startValue x os numY

/-! ## C105 -/

theorem expDecay_lt_one {rise tau : ℝ} (hr : 0 < rise) (ht : 0 < tau) {os : Nat} (ho : 0 < os) (j : Nat) : expDecay rise tau os j < 1 := by
  rw [expDecay, Real.exp_lt_one_iff]
  have : (0 : ℝ) < os := by exact_mod_cast ho
  have : (0 : ℝ) < ((j : ℝ) + 1) * tau / os / rise := by positivity
  linarith

/-- **C105** The smoothing loses nothing: two pulses with the same amplitudes are the same pulse. -/
theorem c105_injective {b : Base ℝ} {o : Option ℝ} {rise tau : ℝ} {rest : List ℝ} {ps pe : Nat} {t : TF ℝ c} {y y' x : Pulse ℝ c}
    (S : ExpSetup b o rise tau rest ps pe t y) (S' : ExpSetup b o rise tau rest ps pe t y') (hx : t.run y = .ok x)
    (hx' : t.run y' = .ok x) : y = y' := by
  obtain ⟨z, hz, -, -, -, hm, -⟩ := exponential_rows b o rise tau rest ps pe S.os_pos S.rest_ne S.padding t y S.times S.rows
  obtain ⟨z', hz', -, -, -, hm', -⟩ := exponential_rows b o rise tau rest ps pe S.os_pos S.rest_ne S.padding t y' S'.times S'.rows
  rw [hx] at hz
  rw [hx'] at hz'
  cases hz
  cases hz'
  have hl : y.length = y'.length := S.rows.trans S'.rows.symm
  have hrow : ∀ i, i < y.length → ∀ k, rowAt y i k = rowAt y' i k := by
    intro i
    induction i with
    | zero =>
      intro hi k
      have h1 := hm 0 0 hi S.os_pos k
      rw [hm' 0 0 (by omega) S.os_pos k] at h1
      have h2 := expDecay_lt_one S.rise_pos S.tau_pos S.os_pos 0
      simp only [prevValue, if_true, zero_mul, zero_add, add_left_inj, mul_eq_mul_right_iff] at h1
      rcases h1 with h1 | h1
      · exact h1.symm
      · linarith
    | succ i ih =>
      intro hi k
      have h1 := hm (i + 1) 0 hi S.os_pos k
      rw [hm' (i + 1) 0 (by omega) S.os_pos k] at h1
      have h2 := expDecay_lt_one S.rise_pos S.tau_pos S.os_pos 0
      simp only [prevValue, Nat.add_eq_zero_iff, one_ne_zero, and_false, if_false, Nat.add_sub_cancel, ih (by omega) k, add_left_inj,
        add_right_inj, mul_eq_mul_right_iff] at h1
      rcases h1 with h1 | h1
      · exact h1.symm
      · linarith
  refine List.ext_getElem hl fun i h1 h2 => ?_
  funext k
  have := hrow i h1 k
  simpa [rowAt, List.getElem?_eq_getElem h1, List.getElem?_eq_getElem h2] using this

/-- Rounding finds an integer from every number nearer to it than one half. -/
theorem pyRound_near {r : ℝ} {n : Nat} (h : |r - n| < 1 / 2) : pyRound r = n := by
  obtain ⟨h1, h2⟩ := abs_lt.mp h
  by_cases hn : (n : ℝ) ≤ r
  · have hf : ⌊r⌋ = (n : ℤ) := by
      rw [Int.floor_eq_iff]
      push_cast
      constructor <;> linarith
    have h3 : r - (⌊r⌋ : ℝ) < 1 / 2 := by rw [hf]; push_cast; linarith
    rw [pyRound, if_pos h3, hf]
  · have hf : ⌊r⌋ = (n : ℤ) - 1 := by
      rw [Int.floor_eq_iff]
      push_cast
      constructor <;> linarith
    have h3 : ¬ r - (⌊r⌋ : ℝ) < 1 / 2 := by rw [hf]; push_cast; linarith
    have h4 : 1 / 2 < r - (⌊r⌋ : ℝ) := by rw [hf]; push_cast; linarith
    rw [pyRound, if_neg h3, if_pos h4, hf]
    ring

/-- The loop undoes the smoothing, if the start value is the offset: it returns the pulse plus the offset. -/
theorem unsmoothAll_ok {b : Base ℝ} {o : Option ℝ} {rise tau : ℝ} {rest : List ℝ} {pe : Nat} {t : TF ℝ c} {y x : Pulse ℝ c} (hc : 0 < c)
    (S : ExpSetup b o rise tau rest 0 pe t y) (hx : t.run y = .ok x) :
    unsmoothAll rise tau (some (o.getD 0)) x b.oversampling y.length = .ok (y.map fun v k => v k + o.getD 0) := by
  obtain ⟨z, hz, hl, hX, -, hm, -⟩ := exponential_rows b o rise tau rest 0 pe S.os_pos S.rest_ne S.padding t y S.times S.rows
  rw [hx] at hz
  cases hz
  have hos := S.os_pos
  have hdec : Real.exp (-(1 / (b.oversampling : ℝ) * tau / rise)) = expDecay rise tau b.oversampling 0 := by
    unfold expDecay
    congr 1
    simp only [Nat.cast_zero, zero_add]
    ring
  have hlt := expDecay_lt_one S.rise_pos S.tau_pos S.os_pos 0
  have hne : (1 : ℝ) - expDecay rise tau b.oversampling 0 ≠ 0 := by linarith
  have hun : ∀ i < y.length, ∀ k, unsmooth (expDecay rise tau b.oversampling 0) (o.getD 0) (fun i => rowAt x (i * b.oversampling) k) i
      = rowAt y i k + o.getD 0 := by
    intro i
    induction i with
    | zero =>
      intro hi k
      have h1 := hm 0 0 hi S.os_pos k
      simp only [prevValue, if_true, zero_mul, Nat.zero_add, Nat.zero_mul, Nat.add_zero, zero_add] at h1
      simp only [unsmooth, Nat.zero_mul, h1, add_sub_cancel_right]
      rw [mul_div_assoc, div_self hne, mul_one]
    | succ i ih =>
      intro hi k
      have h1 := hm (i + 1) 0 hi S.os_pos k
      simp only [prevValue, Nat.add_eq_zero_iff, one_ne_zero, and_false, if_false, Nat.add_sub_cancel, Nat.zero_add, Nat.add_zero] at h1
      simp only [unsmooth, ih (by omega) k, h1]
      field_simp
      ring
  have hne0 : 0 < y.length := by rw [S.rows]; simp
  have h1 : ¬ x.length ≤ (y.length - 1) * b.oversampling := by
    have : y.length = (y.length - 1) + 1 := by omega
    rw [hl, hX, this, Nat.mul_add, Nat.mul_comm, Nat.add_sub_cancel]
    omega
  have h2 : x.length ≠ 0 := by intro h; rw [h] at h1; omega
  simp only [unsmoothAll, hc.ne', hne0.ne', h1, h2, if_false, hdec]
  congr 1
  refine List.ext_getElem (by simp) fun i h1 h2 => ?_
  have h3 : i < y.length := by simpa using h2
  funext k
  rw [List.getElem_map, List.getElem_range, hun i h3 k]
  simp [rowAt, List.getElem?_eq_getElem h3]

/-- **C105** (partial): with the missing attributes set by hand (`start_value` to the offset, `xtimes` to times with the spacing of the
steps) and without padding at the start, `reverse_state` recovers the pulse plus the offset: the pulse itself without offset.  The
oversampling is found from the number of rows, if there are fewer padding elements at the end than steps, or from the argument `times`, if
its spacing is that of the samples up to rounding (the quotient is nearer to the oversampling than one half) and its number of elements
that of the samples plus less than the oversampling.  Missing: the object as
it is constructed (`c105_violated`), padding at the start (`c105_violated_padding`), another start value (`c105_violated_start`). -/
theorem c105_reverse_partial {b : Base ℝ} {o : Option ℝ} {rise tau : ℝ} {rest : List ℝ} {pe : Nat} {t : TF ℝ c} {y x : Pulse ℝ c}
    (hc : 0 < c) (S : ExpSetup b o rise tau rest 0 pe t y) (hx : t.run y = .ok x) (t₀ : ℝ) (more : List ℝ) :
    (pe < y.length → reverseState rise t.base.numY ⟨some (t₀ :: (t₀ + tau) :: more), some (o.getD 0)⟩ (some x)
      = .ok (y.map fun v k => v k + o.getD 0)) ∧
    (∀ (numY : Nat) (s₀ s₁ : ℝ) (ts : List ℝ), |tau / (s₁ - s₀) - b.oversampling| < 1 / 2 →
      (s₀ :: s₁ :: ts).length / b.oversampling = y.length →
      reverseState rise numY ⟨some (t₀ :: (t₀ + tau) :: more), some (o.getD 0)⟩ (some x) (some (s₀ :: s₁ :: ts))
        = .ok (y.map fun v k => v k + o.getD 0)) := by
  have hoz : b.oversampling ≠ 0 := by have := S.os_pos; omega
  constructor
  · intro hpe
    obtain ⟨z, hz, hl, hX, -⟩ := exponential_rows b o rise tau rest 0 pe S.os_pos S.rest_ne S.padding t y S.times S.rows
    rw [hx] at hz
    cases hz
    have hY : t.base.numY = y.length := by
      have ht := S.times
      simp only [TF.setTimes] at ht
      obtain ⟨b', hb, ht⟩ := bind_ok ht
      simp only [pure, Except.pure, Except.ok.injEq] at ht
      subst ht
      obtain ⟨-, -, -, -, -, hn, -⟩ := c01_grid_length b b' _ hb
      rw [show (TF.matrix b' o (exponentialTensor c rise) none).base = b' from rfl, hn, S.rows]
    have hos : x.length / y.length = b.oversampling := by
      rw [hl, hX, Nat.zero_add, Nat.mul_comm, Nat.mul_add_div (by omega), Nat.div_eq_of_lt hpe, Nat.add_zero]
    have hne0 : y.length ≠ 0 := by rw [S.rows]; simp
    simp only [reverseState, OldAttrs.xtau, bind, Except.bind, hY, hne0, hc.ne', or_self, if_false, hos, hoz, add_sub_cancel_left,
      unsmoothAll_ok hc S hx]
  · intro numY s₀ s₁ ts hnear hlen
    have hop : (1 : ℝ) ≤ b.oversampling := by exact_mod_cast S.os_pos
    have hz : s₁ - s₀ ≠ 0 := by
      intro h
      rw [h, div_zero, zero_sub, abs_neg, abs_of_nonneg (by linarith)] at hnear
      linarith
    have hzi : (b.oversampling : ℤ) ≠ 0 := by exact_mod_cast hoz
    have hneg : ¬ (b.oversampling : ℤ) < 0 := by omega
    have hlen' : (ts.length + 2) / b.oversampling = y.length := hlen
    simp only [reverseState, OldAttrs.xtau, bind, Except.bind, add_sub_cancel_left, hz, if_false, pyRound_near hnear, hzi, hneg,
      Int.toNat_natCast, hlen', unsmoothAll_ok hc S hx]

/-- **C105 violated** for a start value other than the offset: the first recovered value is wrong by a fixed amount. -/
theorem c105_violated_start {b : Base ℝ} {o : Option ℝ} {rise tau : ℝ} {rest : List ℝ} {pe : Nat} {t : TF ℝ c} {y x : Pulse ℝ c}
    (hc : 0 < c) (S : ExpSetup b o rise tau rest 0 pe t y) (hpe : pe < y.length) (hx : t.run y = .ok x) (t₀ s : ℝ) (hs : s ≠ o.getD 0) :
    ∃ r, reverseState rise t.base.numY ⟨some [t₀, t₀ + tau], some s⟩ (some x) = .ok r ∧ r.length = y.length ∧
      ∀ k, rowAt r 0 k ≠ rowAt y 0 k + o.getD 0 := by
  obtain ⟨z, hz, hl, hX, -, hm, -⟩ := exponential_rows b o rise tau rest 0 pe S.os_pos S.rest_ne S.padding t y S.times S.rows
  rw [hx] at hz
  cases hz
  have hY : t.base.numY = y.length := by
    have ht := S.times
    simp only [TF.setTimes] at ht
    obtain ⟨b', hb, ht⟩ := bind_ok ht
    simp only [pure, Except.pure, Except.ok.injEq] at ht
    subst ht
    obtain ⟨-, -, -, -, -, hn, -⟩ := c01_grid_length b b' _ hb
    rw [show (TF.matrix b' o (exponentialTensor c rise) none).base = b' from rfl, hn, S.rows]
  have hos' := S.os_pos
  have hoz : b.oversampling ≠ 0 := by omega
  have hos : x.length / y.length = b.oversampling := by
    rw [hl, hX, Nat.zero_add, Nat.mul_comm, Nat.mul_add_div (by omega), Nat.div_eq_of_lt hpe, Nat.add_zero]
  have hne0 : 0 < y.length := by rw [S.rows]; simp
  have h1 : ¬ x.length ≤ (y.length - 1) * b.oversampling := by
    have : y.length = (y.length - 1) + 1 := by omega
    rw [hl, hX, this, Nat.mul_add, Nat.mul_comm, Nat.add_sub_cancel]
    omega
  have h2 : x.length ≠ 0 := by intro h; rw [h] at h1; omega
  refine ⟨_, by simp only [reverseState, OldAttrs.xtau, bind, Except.bind, hY, hne0.ne', hc.ne', or_self, if_false, hos, hoz,
    add_sub_cancel_left, unsmoothAll, h1, h2]; rfl, by simp, fun k hk => hs ?_⟩
  have hdec : Real.exp (-(1 / (b.oversampling : ℝ) * tau / rise)) = expDecay rise tau b.oversampling 0 := by
    unfold expDecay
    congr 1
    simp only [Nat.cast_zero, zero_add]
    ring
  have hlt := expDecay_lt_one S.rise_pos S.tau_pos S.os_pos 0
  have hpos : 0 < expDecay rise tau b.oversampling 0 := Real.exp_pos _
  have hne : (1 : ℝ) - expDecay rise tau b.oversampling 0 ≠ 0 := by linarith
  have h3 := hm 0 0 hne0 S.os_pos k
  simp only [prevValue, if_true, zero_mul, Nat.zero_add, Nat.zero_mul, Nat.add_zero, zero_add] at h3
  have hz0 : rowAt ((List.range y.length).map fun i k => unsmooth (Real.exp (-(1 / (b.oversampling : ℝ) * tau / rise))) s
      (fun i => rowAt x (i * b.oversampling) k) i) 0 k
      = (rowAt x 0 k - s) / (1 - expDecay rise tau b.oversampling 0) + s := by
    simp [rowAt, hne0, unsmooth, ← hdec]
  rw [hz0, h3] at hk
  field_simp at hk
  have : expDecay rise tau b.oversampling 0 * (s - o.getD 0) = 0 := by linarith
  rcases mul_eq_zero.1 this with h | h
  · linarith
  · linarith

/-- **C105 violated** for an argument `times` with fewer than two elements: the amplitudes come back as they are. -/
theorem c105_violated_single {b : Base ℝ} {o : Option ℝ} {rise tau : ℝ} {rest : List ℝ} {ps pe : Nat} {t : TF ℝ c} {y x : Pulse ℝ c}
    (S : ExpSetup b o rise tau rest ps pe t y) (hos : 1 < b.oversampling) (hx : t.run y = .ok x) (numY : Nat) (t₀ t₁ : ℝ) (s : Option ℝ)
    (ts : List ℝ) (hts : ts.length < 2) :
    reverseState rise numY ⟨some [t₀, t₁], s⟩ (some x) (some ts) = .ok x ∧ x.length ≠ y.length := by
  obtain ⟨z, hz, hl, hX, -⟩ := exponential_rows b o rise tau rest ps pe S.os_pos S.rest_ne S.padding t y S.times S.rows
  rw [hx] at hz
  cases hz
  refine ⟨?_, ?_⟩
  · match ts, hts with
    | [], _ => rfl
    | [_], _ => rfl
    | _ :: _ :: _, h => simp at h
  · have h1 : 0 < y.length := by rw [S.rows]; simp
    have h2 : 2 * y.length ≤ b.oversampling * y.length := Nat.mul_le_mul_right _ hos
    omega

/-- **C105 is violated** also when `xtimes` is set by hand to a single time: there is no spacing to read, IndexError. -/
theorem c105_violated_times (rise : ℝ) (numY : Nat) (x : Pulse ℝ c) (xs : List ℝ) (hl : xs.length < 2) (s : Option ℝ) (ts : Option (List ℝ)) :
    reverseState rise numY ⟨some xs, s⟩ (some x) ts = .error .indexError := by
  match xs, hl with
  | [], _ => rfl
  | [_], _ => rfl
  | _ :: _ :: _, h => simp at h

example : reverseState 1 2 ⟨some [3], some 0⟩ (some ([fun _ => 1, fun _ => 2] : Pulse ℝ 1)) = .error .indexError :=
  c105_violated_times 1 2 _ [3] (by decide) _ none

/-- **C105 violated**: on every object as it is constructed, `reverse_state` raises AttributeError, whatever amplitudes it is
given. -/
theorem c105_violated (rise : ℝ) (numY : Nat) (x : Option (Pulse ℝ c)) (ts : Option (List ℝ)) :
    reverseState rise numY .new x ts = .error .attributeError := by
  cases x <;> rfl

/-- **C105 violated**: setting `xtimes` by hand is not enough, the amplitudes of the object itself still give an AttributeError: the
second attribute, `start_value`, does not exist either. -/
theorem c105_violated_attribute {b : Base ℝ} {o : Option ℝ} {rise tau : ℝ} {rest : List ℝ} {pe : Nat} {t : TF ℝ c} {y x : Pulse ℝ c}
    (hc : 0 < c) (S : ExpSetup b o rise tau rest 0 pe t y) (hpe : pe < y.length) (hx : t.run y = .ok x) (t₀ : ℝ) (more : List ℝ) :
    reverseState rise t.base.numY { OldAttrs.new with xtimes := some (t₀ :: (t₀ + tau) :: more) } (some x) = .error .attributeError := by
  have hoz : b.oversampling ≠ 0 := by have := S.os_pos; omega
  obtain ⟨z, hz, hl, hX, -⟩ := exponential_rows b o rise tau rest 0 pe S.os_pos S.rest_ne S.padding t y S.times S.rows
  rw [hx] at hz
  cases hz
  have hY : t.base.numY = y.length := by
    have ht := S.times
    simp only [TF.setTimes] at ht
    obtain ⟨b', hb, ht⟩ := bind_ok ht
    simp only [pure, Except.pure, Except.ok.injEq] at ht
    subst ht
    obtain ⟨-, -, -, -, -, hn, -⟩ := c01_grid_length b b' _ hb
    rw [show (TF.matrix b' o (exponentialTensor c rise) none).base = b' from rfl, hn, S.rows]
  have hos : x.length / y.length = b.oversampling := by
    rw [hl, hX, Nat.zero_add, Nat.mul_comm, Nat.mul_add_div (by omega), Nat.div_eq_of_lt hpe, Nat.add_zero]
  have hne0 : y.length ≠ 0 := by rw [S.rows]; simp
  have hx0 : x.length ≠ 0 := by
    intro h
    rw [h, Nat.zero_div] at hos
    omega
  simp only [reverseState, OldAttrs.xtau, OldAttrs.new, bind, Except.bind, hY, hne0, hc.ne', or_self, if_false, hos, hoz, unsmoothAll, hx0]

/-- A case of `c105_reverse_partial`, `c105_injective` and `c105_violated`: two steps of width 1, rise time 1, oversampling 3. -/
example : ∃ (t : TF ℝ 1) (x : Pulse ℝ 1), t.run [fun _ => 2, fun _ => -1] = .ok x ∧ x.length = 6 ∧
    reverseState 1 t.base.numY ⟨some [0, 1], some 0⟩ (some x) = .ok [fun _ => 2, fun _ => -1] ∧
    reverseState 1 t.base.numY ⟨some [0, 1], some 0⟩ (some x) (some [0, 3 / 10, 2 / 3, 1, 4 / 3, 5 / 3, 2]) = .ok [fun _ => 2, fun _ => -1] ∧
    reverseState 1 t.base.numY ⟨some [0, 1], some 0⟩ (some x) (some [0, 3 / 8, 2 / 3, 1, 4 / 3, 5 / 3, 2]) = .ok [fun _ => 2, fun _ => -1] ∧
    reverseState 1 t.base.numY { OldAttrs.new with xtimes := some [0, 1] } (some x) = .error .attributeError ∧
    (∃ r, reverseState 1 t.base.numY ⟨some [0, 0 + 1], some 5⟩ (some x) = .ok r ∧ rowAt r 0 0 ≠ 2) ∧
    reverseState 1 t.base.numY ⟨some [0, 1], some 0⟩ (some x) (some [0]) = .ok x ∧
    reverseState 1 t.base.numY .new (some x) = .error .attributeError ∧
    t.run [fun _ => 2, fun _ => 1] ≠ .ok x := by
  obtain ⟨t, ht⟩ : ∃ t : TF ℝ 1, ∀ y, y.length = 2 → ExpSetup (c := 1) (Base.init ℝ none 3) none 1 1 [1] 0 0 t y :=
    ⟨_, fun y hy => ⟨by decide, one_pos, one_pos, by simp, rfl, rfl, hy⟩⟩
  have S := ht [fun _ => 2, fun _ => -1] rfl
  obtain ⟨x, hx, hl, hX, -⟩ := exponential_rows _ none 1 1 [1] 0 0 S.os_pos S.rest_ne S.padding t _ S.times S.rows
  refine ⟨t, x, hx, by rw [hl, hX]; rfl, ?_, ?_, ?_, ?_, ?_, (c105_violated_single S (by decide) hx _ 0 1 _ [0] (by decide)).1, rfl, fun h => ?_⟩
  · have := (c105_reverse_partial one_pos S hx 0 []).1 (by decide)
    simpa using this
  · have := (c105_reverse_partial one_pos S hx 0 []).2 t.base.numY 0 (3 / 10) [2 / 3, 1, 4 / 3, 5 / 3, 2]
      (by rw [abs_lt]; norm_num [Base.init]) rfl
    simpa [Base.init] using this
  · have := (c105_reverse_partial one_pos S hx 0 []).2 t.base.numY 0 (3 / 8) [2 / 3, 1, 4 / 3, 5 / 3, 2]
      (by rw [abs_lt]; norm_num [Base.init]) rfl
    simpa [Base.init] using this
  · have := c105_violated_attribute one_pos S (by decide) hx 0 []
    simpa using this
  · obtain ⟨r, hr, -, h⟩ := c105_violated_start one_pos S (by decide) hx 0 5 (by norm_num)
    exact ⟨r, hr, by simpa [rowAt] using h 0⟩
  · have := c105_injective S (ht _ rfl) hx h
    simp only [List.cons.injEq, and_true, true_and] at this
    have := congrFun this 0
    norm_num at this

/-- **C105 violated** also when the attributes are set: padding at the start is taken for the first step. -/
theorem c105_violated_padding : ∃ (t : TF ℝ 1) (y x r : Pulse ℝ 1),
    ExpSetup (c := 1) (Base.init ℝ (some ⟨.n, 1⟩) 2) none 1 1 [1] 1 1 t y ∧ t.run y = .ok x ∧
    reverseState 1 t.base.numY ⟨some [0, 1], some 0⟩ (some x) = .ok r ∧ r ≠ y := by
  obtain ⟨t, ht⟩ : ∃ t : TF ℝ 1, ExpSetup (c := 1) (Base.init ℝ (some ⟨.n, 1⟩) 2) none 1 1 [1] 1 1 t [fun _ => 1, fun _ => 0] ∧
      t.base.numY = 2 :=
    ⟨_, ⟨by decide, one_pos, one_pos, by simp, rfl, rfl, rfl⟩, rfl⟩
  obtain ⟨S, hY⟩ := ht
  obtain ⟨x, hx, hl, hX, hs, -⟩ := exponential_rows _ none 1 1 [1] 1 1 S.os_pos S.rest_ne S.padding t _ S.times S.rows
  have hlen : x.length = 6 := by rw [hl, hX]; rfl
  refine ⟨t, _, x, _, S, hx, by simp [reverseState, unsmoothAll, OldAttrs.xtau, hY, hlen, bind, Except.bind]; rfl, ?_⟩
  intro h
  have h0 := congrArg (fun l : Pulse ℝ 1 => rowAt l 0 0) h
  have hz : rowAt x 0 0 = 0 := hs 0 (by decide) 0
  simp [rowAt, unsmooth, List.range_succ] at h0
  simp [rowAt] at hz
  rw [hz] at h0
  norm_num at h0

end Verif.Transfer
