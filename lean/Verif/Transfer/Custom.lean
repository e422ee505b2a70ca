import Verif.Transfer.TimesThms
import Verif.Transfer.ComposeLemmas
import Verif.Transfer.Adjoint
import Mathlib.Tactic.Ring
import Mathlib.Tactic.Linarith

/-!
# C84: a transfer function given by its matrix (`CustomMTF`, transfer_function.py:1304-1399)

Simplifications: the state left behind by a call that raises is not modelled; a negative oversampling is rejected by `np.repeat`
with a ValueError; an oversampling of `0` divides by zero (numpy warns and continues), the quotients are `0` here.
-/

namespace Verif.Transfer
open Verif

variable {K : Type} [Field K] {c f : Nat}

/-- A `CustomMTF` object. -/
structure CustomMTF (K : Type) (c : Nat) where
  base : Base K
  offset : Option K
  T : Tensor K c

/-- `CustomMTF.__init__`, transfer_function.py:1336-1355. -/
def CustomMTF.new (T : Tensor K c) (xTimes : Option (List K)) (bound : Option Bound) (oversampling : Nat) (offset : Option K) :
    CustomMTF K c :=
  { base := { bound, oversampling, numY := T.ny, yTimes := none, numX := T.nx, xTimes }, offset, T }

/-- The oversampling constructed in `CustomMTF.set_times`, transfer_function.py:1366-1386: a quotient, truncated by `int`. -/
def impliedOversampling (b : Base K) : Except PyErr Int :=
  match b.bound with
  | none => if b.numY = 0 then .error .zeroDivisionError
    else if b.numX % b.numY ≠ 0 then .error .valueError
    else .ok (b.numX / b.numY : Nat)
  | some ⟨.n, k⟩ => if b.numY = 0 then .error .zeroDivisionError else .ok (((b.numX : Int) - 2 * k).tdiv b.numY)
  | some ⟨.x, k⟩ => if 2 * k + b.numY = 0 then .error .zeroDivisionError else .ok ((b.numX : Int).tdiv (2 * k + b.numY : Nat))
  | some ⟨.rightN, k⟩ => if b.numY = 0 then .error .zeroDivisionError else .ok (((b.numX : Int) - k).tdiv b.numY)
  | some ⟨.other _, _⟩ => .error .valueError

/-- `CustomMTF.set_times`, transfer_function.py:1362-1392. -/
def CustomMTF.setTimes (t : CustomMTF K c) (y : List K) : Except PyErr (CustomMTF K c) :=
  match t.base.xTimes with
  | none => match impliedOversampling t.base with
    | .error e => .error e
    | .ok os =>
      if os < 0 then .error .valueError
      else match ({ t.base with oversampling := os.toNat } : Base K).setTimes y with
        | .error e => .error e
        | .ok b => .ok { t with base := b }
  | some _ =>
    if y.length ≠ t.base.numY then .error .valueError
    else .ok { t with base := { t.base with xTimes := some y } }

/-- `MatrixTF.__call__`, transfer_function.py:1066-1093; the matrix is always present. -/
def CustomMTF.call (t : CustomMTF K c) (y : Pulse K c) : Except PyErr (Pulse K c) :=
  match TF.checkRows t.base y with
  | .error e => .error e
  | .ok _ => match t.T.apply y with
    | .error e => .error e
    | .ok x => .ok (TF.addOffset t.offset x)

/-- `MatrixTF.gradient_chain_rule`, transfer_function.py:1114-1132. -/
def CustomMTF.grad (t : CustomMTF K c) (g : Grads K f c) : Except PyErr (Grads K f c) :=
  if g.length = t.base.numX then t.T.applyAdj g else .error .assertionError

/-! ## Specification -/

/-- Specification: the matrix has the number of rows that belongs to the bound type and an oversampling `os`. -/
def Fits (T : Tensor K c) (bound : Option Bound) (os : Nat) : Prop :=
  ∃ ps pe, specPadding bound os = some (ps, pe) ∧ T.nx = ps + os * T.ny + pe

/-- Specification: the object can be used with a pulse on the grid `y`: one duration for each row of the result. -/
def Ready (t : CustomMTF K c) (y : List K) : Prop :=
  ∃ x, t.base.xTimes = some x ∧ t.base.yTimes = some y ∧
    (∀ p : Pulse K c, p.length = y.length → ∃ r, t.call p = .ok r ∧ r.length = x.length) ∧
    (∀ p : Pulse K c, p.length ≠ y.length → t.call p = .error .indexError)

/-! ## Theorems -/

omit [Field K] in
theorem implied_of_fits {T : Tensor K c} {bound : Option Bound} {os : Nat} (hy : 0 < T.ny) (h : Fits T bound os)
    (os₀ : Nat) (offset : Option K) : impliedOversampling (CustomMTF.new T none bound os₀ offset).base = .ok (os : Int) := by
  obtain ⟨ps, pe, hp, hn⟩ := h
  have hy' : T.ny ≠ 0 := by omega
  have hyI : (T.ny : Int) ≠ 0 := by exact_mod_cast hy'
  rcases bound with _ | ⟨code, k⟩
  · cases hp
    have e : T.nx = T.ny * os := by rw [hn]; ring
    simp [impliedOversampling, CustomMTF.new, hy', e, Nat.mul_div_cancel_left _ hy]
  · cases code
    · cases hp
      have e : (T.nx : Int) - 2 * ps = T.ny * os := by rw [hn]; push_cast; ring
      simp [impliedOversampling, CustomMTF.new, hy', e, Int.mul_tdiv_cancel_left _ hyI]
    · cases hp
      have hz : 2 * k + T.ny ≠ 0 := by omega
      have hzI : ((2 * k + T.ny : Nat) : Int) ≠ 0 := by exact_mod_cast hz
      have e : (T.nx : Int) = ((2 * k + T.ny : Nat) : Int) * os := by rw [hn]; push_cast; ring
      simp only [impliedOversampling, CustomMTF.new, if_neg hz, e, Int.mul_tdiv_cancel_left _ hzI]
    · cases hp
      have e : (T.nx : Int) - pe = T.ny * os := by rw [hn]; push_cast; ring
      simp [impliedOversampling, CustomMTF.new, hy', e, Int.mul_tdiv_cancel_left _ hyI]
    · cases hp

/-- **C84** (part) For a matrix that fits an oversampling, an object built without `x_times` works on every grid with as many steps
as the matrix has columns: the first `set_times` finds the oversampling, pulses are mapped to as many rows as there are durations.
Missing: matrices that do not fit, explicit `x_times`, and every further call of `set_times` (all violated below). -/
theorem c84_first_grid_partial (T : Tensor K c) (bound : Option Bound) (os os₀ : Nat) (offset : Option K) (y : List K)
    (hy : 0 < T.ny) (hf : Fits T bound os) (hl : y.length = T.ny) :
    ∃ t, (CustomMTF.new T none bound os₀ offset).setTimes y = .ok t ∧ Ready t y ∧ t.base.oversampling = os ∧
      t.base.numX = T.nx ∧ ∀ x, t.base.xTimes = some x → x.length = T.nx := by
  obtain ⟨ps, pe, hp, hn⟩ := id hf
  set b₁ : Base K := { (CustomMTF.new T none bound os₀ offset).base with oversampling := os } with hb₁
  have hyne : y ≠ [] := by intro h; rw [h] at hl; simp at hl; omega
  obtain ⟨b', hb'⟩ : ∃ b', b₁.setTimes y = .ok b' := by
    rw [c01_success_iff]
    right
    refine ⟨?_, hyne⟩
    rw [show b₁.bound = bound from rfl, show b₁.oversampling = os from rfl, hp]
    rfl
  obtain ⟨x, ps', pe', hx, hyt, hny, hp', -, hxl, hnx⟩ := c01_grid_length _ _ _ hb'
  rw [show b₁.bound = bound from rfl, show b₁.oversampling = os from rfl, hp] at hp'
  cases hp'
  rw [show b₁.oversampling = os from rfl, hl, ← hn] at hnx
  have hset : (CustomMTF.new T none bound os₀ offset).setTimes y =
      .ok { (CustomMTF.new T none bound os₀ offset) with base := b' } := by
    unfold CustomMTF.setTimes
    rw [show (CustomMTF.new T none bound os₀ offset).base.xTimes = none from rfl]
    simp only [implied_of_fits hy hf]
    rw [if_neg (by omega)]
    simp only [Int.toNat_natCast]
    rw [hb']
  refine ⟨_, hset, ⟨x, hx, hyt, ?_, ?_⟩, ?_, hnx, ?_⟩
  · intro p hpl
    have hc : TF.checkRows b' p = .ok () := by unfold TF.checkRows; rw [hyt]; simp [hny, hpl]
    have ha : ∃ r, T.apply p = .ok r ∧ r.length = T.nx := by
      unfold Tensor.apply
      rw [if_pos (by rw [hpl, hl])]
      exact ⟨_, rfl, by simp⟩
    obtain ⟨r, hr, hrl⟩ := ha
    refine ⟨TF.addOffset offset r, ?_, ?_⟩
    · unfold CustomMTF.call
      simp only [hc]
      rw [show (CustomMTF.new T none bound os₀ offset).T = T from rfl, hr]
      rfl
    · rw [TF.addOffset_length, hrl, hxl, hnx]
  · intro p hpl
    have hc : TF.checkRows b' p = .error .indexError := by unfold TF.checkRows; rw [hyt]; simp [hny, hpl]
    unfold CustomMTF.call
    simp only [hc]
  · have : b'.oversampling = b₁.oversampling := by
      unfold Base.setTimes at hb'
      repeat' split at hb'
      all_goals first | (cases hb'; rfl) | (cases hb')
    exact this
  · intro x' hx'
    rw [hx] at hx'
    cases hx'
    rw [hxl, hnx]

/-- **C84** (part) On such an object the call is the matrix product with the offset. -/
theorem c84_linear_partial (T : Tensor K c) (bound : Option Bound) (os os₀ : Nat) (offset : Option K) (y : List K)
    (hy : 0 < T.ny) (hf : Fits T bound os) (hl : y.length = T.ny) (t : CustomMTF K c)
    (ht : (CustomMTF.new T none bound os₀ offset).setTimes y = .ok t) (p x : Pulse K c) (hx : t.call p = .ok x)
    (i : Nat) (hi : i < T.nx) (k : Fin c) :
    rowAt x i k = ∑ j ∈ Finset.range T.ny, T.val i j k * rowAt p j k + offset.getD 0 := by
  have ht' := c84_first_grid_partial T bound os os₀ offset y hy hf hl
  simp only [ht, Except.ok.injEq, exists_eq_left'] at ht'
  have hT : t.T = T ∧ t.offset = offset := by
    unfold CustomMTF.setTimes at ht
    repeat' split at ht
    all_goals first | (cases ht; exact ⟨rfl, rfl⟩) | (cases ht)
  obtain ⟨⟨x', -, -, -, hrej⟩, -⟩ := ht'
  have hpl : p.length = T.ny := by
    by_contra hne
    rw [hrej p (by rw [hl]; exact hne)] at hx
    cases hx
  unfold CustomMTF.call at hx
  split at hx
  · cases hx
  · rw [hT.1, hT.2] at hx
    unfold Tensor.apply at hx
    rw [if_pos hpl] at hx
    cases hx
    cases offset <;> simp [TF.addOffset, rowAt, List.getD, hi]

/-- **C84** (part) On such an object `gradient_chain_rule` is the adjoint of the call: it takes one row of derivatives for each row
of the transferred pulse, returns one for each row of the raw pulse, and pairs with differences of pulses in the same way. -/
theorem c84_gradient_partial (T : Tensor K c) (bound : Option Bound) (os os₀ : Nat) (offset : Option K) (y : List K)
    (hy : 0 < T.ny) (hf : Fits T bound os) (hl : y.length = T.ny) (t : CustomMTF K c)
    (ht : (CustomMTF.new T none bound os₀ offset).setTimes y = .ok t) (g : Grads K f c) :
    (g.length ≠ T.nx → t.grad g = .error .assertionError) ∧
    (g.length = T.nx → ∃ h, t.grad g = .ok h ∧ h.length = T.ny ∧ ∀ (p p' x x' : Pulse K c) (φ : Fin f),
      t.call p = .ok x → t.call p' = .ok x' → pairing g x φ - pairing g x' φ = pairing h p φ - pairing h p' φ) := by
  obtain ⟨t', ht', ⟨x', -, -, -, hrej⟩, -, hnx, -⟩ := c84_first_grid_partial T bound os os₀ offset y hy hf hl
  rw [ht] at ht'
  cases ht'
  have hT : t.T = T := by
    unfold CustomMTF.setTimes at ht
    repeat' split at ht
    all_goals first | (cases ht; rfl) | (cases ht)
  refine ⟨fun hg => ?_, fun hg => ?_⟩
  · unfold CustomMTF.grad
    rw [hnx, if_neg hg]
  · obtain ⟨h, hh⟩ : ∃ h, T.applyAdj g = .ok h := by
      unfold Tensor.applyAdj
      rw [if_pos hg]
      exact ⟨_, rfl⟩
    refine ⟨h, ?_, (Tensor.applyAdj_length hh).1, ?_⟩
    · unfold CustomMTF.grad
      rw [hnx, if_pos hg, hT, hh]
    · have key : ∀ p x, t.call p = .ok x → ∃ z, T.apply p = .ok z ∧ x = TF.addOffset t.offset z ∧ z.length = T.nx := by
        intro p x hx
        unfold CustomMTF.call at hx
        split at hx
        · cases hx
        · split at hx
          · cases hx
          · next z hz =>
            rw [hT] at hz
            cases hx
            refine ⟨z, hz, rfl, ?_⟩
            exact (TF.Tensor.apply_length hz).1
      have hrow : ∀ p x, t.call p = .ok x → p.length = T.ny := by
        intro p x hx
        by_contra hne
        rw [hrej p (by rw [hl]; exact hne)] at hx
        cases hx
      intro p p' x x' φ hx hx'
      obtain ⟨z, hz, rfl, hzl⟩ := key p x hx
      obtain ⟨z', hz', rfl, hzl'⟩ := key p' x' hx'
      rw [pairing_addOffset _ _ _ _ (by rw [hzl, hzl']), tensor_adjoint T p z g h φ (hrow p _ hx) hg hz hh,
        tensor_adjoint T p' z' g h φ (hrow p' _ hx') hg hz' hh]

/-- **C84** Without a bound type the rows must be a multiple of the columns; other bound types must be known. -/
theorem c84_rejects (T : Tensor K c) (os₀ : Nat) (offset : Option K) (y : List K) (hy : 0 < T.ny) :
    (T.nx % T.ny ≠ 0 → (CustomMTF.new T none none os₀ offset).setTimes y = .error .valueError) ∧
    ∀ name k, (CustomMTF.new T none (some ⟨.other name, k⟩) os₀ offset).setTimes y = .error .valueError := by
  refine ⟨fun h => ?_, fun name k => ?_⟩
  · have hy' : T.ny ≠ 0 := by omega
    simp [CustomMTF.setTimes, impliedOversampling, CustomMTF.new, hy', h]
  · simp [CustomMTF.setTimes, impliedOversampling, CustomMTF.new]

/-- **C84 is violated** for explicit `x_times`: `set_times` replaces them by the durations of the raw pulse and does not record
the raw grid, so that every call raises RuntimeError. -/
theorem c84_violated_explicit (T : Tensor K c) (xs : List K) (bound : Option Bound) (os₀ : Nat) (offset : Option K) (y : List K)
    (hl : y.length = T.ny) :
    ∃ t, (CustomMTF.new T (some xs) bound os₀ offset).setTimes y = .ok t ∧ t.base.xTimes = some y ∧
      ∀ p : Pulse K c, t.call p = .error .runtimeError := by
  refine ⟨{ (CustomMTF.new T (some xs) bound os₀ offset) with
      base := { (CustomMTF.new T (some xs) bound os₀ offset).base with xTimes := some y } }, ?_, rfl, fun p => rfl⟩
  simp [CustomMTF.setTimes, CustomMTF.new, hl]

/-- **C84 is violated** by the second call of `set_times`: the durations of the transferred pulse become those of the raw pulse,
and the raw grid stays the old one.  With an oversampling other than one, or padding, the number of durations is no longer the
number of rows of a transferred pulse. -/
theorem c84_violated_second (T : Tensor K c) (bound : Option Bound) (os os₀ : Nat) (offset : Option K) (y y' : List K)
    (hy : 0 < T.ny) (hf : Fits T bound os) (hl : y.length = T.ny) (hl' : y'.length = T.ny) :
    ∃ t t', (CustomMTF.new T none bound os₀ offset).setTimes y = .ok t ∧ t.setTimes y' = .ok t' ∧
      t'.base.xTimes = some y' ∧ t'.base.yTimes = some y ∧
      (T.nx ≠ T.ny → ∀ p : Pulse K c, p.length = T.ny → ∃ r, t'.call p = .ok r ∧ r.length ≠ y'.length) := by
  obtain ⟨t, ht, ⟨x, hx, hyt, hcall, -⟩, -, -, hxl⟩ := c84_first_grid_partial T bound os os₀ offset y hy hf hl
  have hny : t.base.numY = T.ny := by
    obtain ⟨r, hr, -⟩ := hcall (List.replicate y.length 0) (by simp)
    unfold CustomMTF.call at hr
    split at hr
    · cases hr
    · next hc =>
      unfold TF.checkRows at hc
      rw [hyt] at hc
      simp only [List.length_replicate] at hc
      split at hc
      · next h => omega
      · cases hc
  refine ⟨t, { t with base := { t.base with xTimes := some y' } }, ht, ?_, rfl, hyt, ?_⟩
  · unfold CustomMTF.setTimes
    rw [hx]
    simp only
    rw [if_neg (by omega)]
  · intro hne p hp
    obtain ⟨r, hr, hrl⟩ := hcall p (by rw [hp, hl])
    refine ⟨r, ?_, ?_⟩
    · exact hr
    · rw [hrl, hxl x hx, hl']
      exact hne

/-- **C84 is violated** for matrices that do not fit: with padding the truncated quotient is used without a check, and the
durations do not match the rows of the result. -/
theorem c84_violated_truncated (T : Tensor K c) (k os₀ : Nat) (offset : Option K) (y : List K) (hy : 0 < T.ny)
    (hl : y.length = T.ny) (hk : 2 * k ≤ T.nx) (hd : ¬ T.ny ∣ T.nx - 2 * k) :
    ∃ t x, (CustomMTF.new T none (some ⟨.n, k⟩) os₀ offset).setTimes y = .ok t ∧ t.base.xTimes = some x ∧
      ∀ p : Pulse K c, p.length = y.length → ∃ r, t.call p = .ok r ∧ r.length ≠ x.length := by
  obtain ⟨m, hm⟩ : ∃ m, T.nx = m + 2 * k := ⟨T.nx - 2 * k, by omega⟩
  have hy' : T.ny ≠ 0 := by omega
  have himp : impliedOversampling (CustomMTF.new T none (some ⟨.n, k⟩) os₀ offset).base = .ok ((m / T.ny : Nat) : Int) := by
    have e : (T.nx : Int) - 2 * k = (m : Nat) := by rw [hm]; push_cast; ring
    simp only [impliedOversampling, CustomMTF.new, if_neg hy', e]
    rfl
  set b₁ : Base K := { (CustomMTF.new T none (some ⟨.n, k⟩) os₀ offset).base with oversampling := m / T.ny } with hb₁
  have hyne : y ≠ [] := by intro h; rw [h] at hl; simp at hl; omega
  obtain ⟨b', hb'⟩ : ∃ b', b₁.setTimes y = .ok b' := by
    rw [c01_success_iff]
    right
    exact ⟨rfl, hyne⟩
  obtain ⟨x, ps', pe', hx, hyt, hny, hp', -, hxl, hnx⟩ := c01_grid_length _ _ _ hb'
  cases hp'
  refine ⟨{ (CustomMTF.new T none (some ⟨.n, k⟩) os₀ offset) with base := b' }, x, ?_, hx, fun p hp => ?_⟩
  · unfold CustomMTF.setTimes
    rw [show (CustomMTF.new T none (some ⟨.n, k⟩) os₀ offset).base.xTimes = none from rfl]
    simp only [himp]
    rw [if_neg (Int.not_lt.2 (Int.natCast_nonneg _))]
    simp only [Int.toNat_natCast]
    rw [hb']
  · have hc : TF.checkRows b' p = .ok () := by unfold TF.checkRows; rw [hyt]; simp [hny, hp]
    refine ⟨TF.addOffset offset ((List.range T.nx).map fun i k => ∑ j ∈ Finset.range T.ny, T.val i j k * rowAt p j k), ?_, ?_⟩
    · unfold CustomMTF.call
      simp only [hc]
      rw [show (CustomMTF.new T none (some ⟨.n, k⟩) os₀ offset).T = T from rfl]
      unfold Tensor.apply
      rw [if_pos (by rw [hp, hl])]
      rfl
    · rw [TF.addOffset_length, hxl, hnx]
      simp only [List.length_map, List.length_range]
      rw [show b₁.oversampling = m / T.ny from rfl, hl]
      intro h
      apply hd
      have h2 : m / T.ny * T.ny = m := by omega
      rw [hm, Nat.add_sub_cancel]
      exact ⟨m / T.ny, by rw [mul_comm]; exact h2.symm⟩

/-- **C84 is violated** for a grid of another length: the first `set_times` accepts it, and every call with a pulse on this grid
raises -- or, when the matrix has one column or the pulse one row, silently returns a result whose number of rows is not the number
of durations, because numpy repeats axes of length one. -/
theorem c84_violated_length (T : Tensor K c) (os os₀ : Nat) (offset : Option K) (y : List K) (hy : 0 < T.ny)
    (hf : Fits T none os) (hl : y.length ≠ T.ny) :
    ∃ t, (CustomMTF.new T none none os₀ offset).setTimes y = .ok t ∧
      (T.ny ≠ 1 → y.length ≠ 1 → ∀ p : Pulse K c, p.length = y.length → t.call p = .error .valueError) ∧
      (T.ny = 1 ∨ y.length = 1 → 0 < T.nx → ∃ x, t.base.xTimes = some x ∧
        ∀ p : Pulse K c, p.length = y.length → ∃ r, t.call p = .ok r ∧ r.length ≠ x.length) := by
  set b₁ : Base K := { (CustomMTF.new T none none os₀ offset).base with oversampling := os } with hb₁
  obtain ⟨b', hb'⟩ : ∃ b', b₁.setTimes y = .ok b' := by
    rw [c01_success_iff]
    exact .inl rfl
  obtain ⟨x, ps', pe', hx, hyt, hny, hp', -, hxl, hnx⟩ := c01_grid_length _ _ _ hb'
  refine ⟨{ (CustomMTF.new T none none os₀ offset) with base := b' }, ?_, fun h1 h2 p hp => ?_, fun h1 h2 => ⟨x, hx, fun p hp => ?_⟩⟩
  · unfold CustomMTF.setTimes
    rw [show (CustomMTF.new T none none os₀ offset).base.xTimes = none from rfl]
    simp only [implied_of_fits hy hf]
    rw [if_neg (by omega)]
    simp only [Int.toNat_natCast]
    rw [hb']
  · have hc : TF.checkRows b' p = .ok () := by unfold TF.checkRows; rw [hyt]; simp [hny, hp]
    unfold CustomMTF.call
    simp only [hc]
    rw [show (CustomMTF.new T none none os₀ offset).T = T from rfl]
    unfold Tensor.apply
    rw [if_neg (by rw [hp]; exact hl), if_neg h1, if_neg (by rw [hp]; exact h2)]
  · have hc : TF.checkRows b' p = .ok () := by unfold TF.checkRows; rw [hyt]; simp [hny, hp]
    obtain ⟨r, hr⟩ : ∃ r, T.apply p = .ok r := by
      unfold Tensor.apply
      rw [if_neg (by rw [hp]; exact hl)]
      by_cases h : T.ny = 1
      · rw [if_pos h]; exact ⟨_, rfl⟩
      · rw [if_neg h, if_pos (by rw [hp]; tauto)]; exact ⟨_, rfl⟩
    refine ⟨TF.addOffset offset r, ?_, ?_⟩
    · unfold CustomMTF.call
      simp only [hc]
      rw [show (CustomMTF.new T none none os₀ offset).T = T from rfl, hr]
      rfl
    · rw [TF.addOffset_length, (TF.Tensor.apply_length hr).1, hxl, hnx]
      cases hp'
      obtain ⟨ps, pe, hps, hfx⟩ := hf
      cases hps
      rw [hfx, show b₁.oversampling = os from rfl]
      have hos : 0 < os := by
        rcases Nat.eq_zero_or_pos os with h | h
        · rw [h] at hfx; simp at hfx; omega
        · exact h
      intro he
      have he' : os * T.ny = os * y.length := by omega
      exact hl (Nat.eq_of_mul_eq_mul_left hos he').symm

/-! ## Cases meeting the hypotheses -/

/-- A matrix with six rows and two columns. -/
abbrev exTensor : Tensor ℚ 1 := { nx := 6, ny := 2, val := fun i j _ => i + 10 * j }

/-- Six rows are two columns with oversampling three, or with oversampling two and one step of padding on each side. -/
example : Fits exTensor none 3 ∧ Fits exTensor (some ⟨.n, 1⟩) 2 ∧ Fits exTensor (some ⟨.x, 2⟩) 1 ∧
    Fits exTensor (some ⟨.rightN, 2⟩) 2 :=
  ⟨⟨0, 0, rfl, rfl⟩, ⟨1, 1, rfl, rfl⟩, ⟨2, 2, rfl, rfl⟩, ⟨0, 2, rfl, rfl⟩⟩

example : ∃ t, (CustomMTF.new exTensor none (some ⟨.n, 1⟩) 7 none).setTimes [1, 4] = .ok t ∧
    t.base.xTimes = some [1 / 2, 1 / 2, 1 / 2, 2, 2, 2] := by
  refine ⟨_, rfl, ?_⟩
  norm_num [npRepeat, CustomMTF.new]
  norm_num [show Int.tdiv 4 2 = 2 from rfl, show Int.toNat 2 = 2 from rfl, List.replicate]

/-- Six rows of derivatives by the transferred pulse give two by the raw pulse; three are rejected. -/
example : ∃ t, (CustomMTF.new exTensor none none 7 (some 5)).setTimes [1, 4] = .ok t ∧
    (∃ h, t.grad (List.replicate 6 (fun (_ : Fin 1) (_ : Fin 1) => (1 : ℚ))) = .ok h ∧ h.length = 2) ∧
    t.grad (List.replicate 3 (fun (_ : Fin 1) (_ : Fin 1) => (1 : ℚ))) = .error .assertionError := by
  have hf : Fits exTensor none 3 := ⟨0, 0, rfl, rfl⟩
  obtain ⟨t, ht, -⟩ := c84_first_grid_partial exTensor none 3 7 (some 5) [1, 4] (by decide) hf rfl
  obtain ⟨h, hh, hl, -⟩ := (c84_gradient_partial exTensor none 3 7 (some 5) [1, 4] (by decide) hf rfl t ht
    (List.replicate 6 (fun (_ : Fin 1) (_ : Fin 1) => (1 : ℚ)))).2 rfl
  exact ⟨t, ht, ⟨h, hh, hl⟩, (c84_gradient_partial exTensor none 3 7 (some 5) [1, 4] (by decide) hf rfl t ht _).1 (by decide)⟩

/-- Five rows cannot be two columns with one padded step on each side. -/
example : ¬ ({ nx := 5, ny := 2, val := fun _ _ _ => 0 } : Tensor ℚ 1).ny ∣ 5 - 2 * 1 := by decide

end Verif.Transfer
