import Mathlib.Tactic.NormNum
import Verif.Transfer.Lemmas

/-! # Property theorems C01-C03: the time grid of a transfer function -/

namespace Verif.Transfer
open Verif

section
variable {K : Type} [Field K]

/-- Specification (independent of `set_times`): the number of padding steps before and after the pulse a
user asks for with a bound type, given the oversampling. -/
def specPadding : Option Bound → Nat → Option (Nat × Nat)
  | none, _ => some (0, 0)
  | some ⟨.n, k⟩, _ => some (k, k)
  | some ⟨.x, k⟩, os => some (os * k, os * k)
  | some ⟨.rightN, k⟩, _ => some (0, k)
  | some ⟨.other _, _⟩, _ => none

/-- **C01** After a successful `set_times` the grid has the promised number of steps, and
`num_padding_elements` reports the padding. -/
theorem c01_grid_length (b b' : Base K) (y : List K) (h : b.setTimes y = .ok b') :
    ∃ x ps pe, b'.xTimes = some x ∧ b'.yTimes = some y ∧ b'.numY = y.length ∧
      specPadding b.bound b.oversampling = some (ps, pe) ∧ b'.numPadding = .ok (ps, pe) ∧
      x.length = b'.numX ∧ b'.numX = ps + b.oversampling * y.length + pe := by
  obtain ⟨bound, os, ny, yt, nx, xt⟩ := b
  unfold Base.setTimes at h
  rcases bound with _ | ⟨code, k⟩
  · simp only [Except.ok.injEq] at h
    subst h
    refine ⟨_, 0, 0, rfl, rfl, rfl, rfl, rfl, by simp, by simp⟩
  · cases code <;> simp only [] at h
    · split at h
      · simp only [Except.ok.injEq] at h
        subst h
        refine ⟨_, k, k, rfl, rfl, rfl, rfl, rfl, by simp; omega, by simp; omega⟩
      · simp at h
    · split at h
      · simp only [Except.ok.injEq] at h
        subst h
        refine ⟨_, os * k, os * k, rfl, rfl, rfl, rfl, ?_, ?_, ?_⟩
        · simp [Base.numPadding, Nat.mul_comm]
        · simp; ring
        · simp; ring
      · simp at h
    · split at h
      · simp only [Except.ok.injEq] at h
        subst h
        refine ⟨_, 0, k, rfl, rfl, rfl, rfl, rfl, by simp, by simp⟩
      · simp at h
    · simp at h

/-- **C01** Exactly which calls of `set_times` succeed: supported bound type, and at least one time
step as soon as a padding bound type is used. -/
theorem c01_success_iff (b : Base K) (y : List K) :
    (∃ b', b.setTimes y = .ok b') ↔
      b.bound = none ∨ ((specPadding b.bound b.oversampling).isSome ∧ y ≠ []) := by
  obtain ⟨bound, os, ny, yt, nx, xt⟩ := b
  unfold Base.setTimes
  rcases bound with _ | ⟨code, k⟩
  · simp
  · cases code <;> cases y <;> simp [specPadding, List.getLast?_cons]

/-- **C01** An unsupported bound type raises `ValueError`. -/
theorem c01_unsupported (b : Base K) (y : List K) (name : String) (k : Nat)
    (hb : b.bound = some ⟨.other name, k⟩) :
    b.setTimes y = .error .valueError ∧ b.numPadding = .error .valueError := by
  simp [Base.setTimes, Base.numPadding, hb]

/-- **C01** An empty grid has no first or last duration to pad with: every supported bound type raises IndexError. -/
theorem c01_empty (b : Base K) (h : b.bound ≠ none) (hs : (specPadding b.bound b.oversampling).isSome) :
    b.setTimes [] = .error .indexError := by
  obtain ⟨bound, os, ny, yt, nx, xt⟩ := b
  rcases bound with _ | ⟨code, k⟩
  · exact absurd rfl h
  · cases code
    · rfl
    · rfl
    · rfl
    · simp [specPadding] at hs

example : (Base.init ℚ (some ⟨.rightN, 2⟩) 3).setTimes [] = .error .indexError ∧ ∃ b, (Base.init ℚ none 3).setTimes [] = .ok b :=
  ⟨c01_empty _ (by simp [Base.init]) rfl, _, rfl⟩

/-- Non-vacuity of C01: padding `('n', 2)`, oversampling 3, two steps gives 10 grid points. -/
example : ∃ b', (Base.init ℚ (some ⟨.n, 2⟩) 3).setTimes [1, 2] = .ok b' ∧ b'.numX = 10 :=
  ⟨_, rfl, rfl⟩

/-! ## C02 durations -/

/-- **C02** Every refined block adds up to the input step it refines. -/
theorem c02_block_sum [CharZero K] (b b' : Base K) (y x : List K) (ps pe i : Nat) (d : K)
    (hos : 0 < b.oversampling) (h : b.setTimes y = .ok b') (hx : b'.xTimes = some x)
    (hp : specPadding b.bound b.oversampling = some (ps, pe)) (hi : y[i]? = some d) :
    ((x.drop (ps + i * b.oversampling)).take b.oversampling).sum = d := by
  have key : ∀ (pre post : List K) (n : Nat) (z : List K), pre.length = ps → z[i]? = some (d / n) →
      0 < n → ((((pre ++ npRepeat n z) ++ post).drop (ps + i * n)).take n).sum = d := by
    intro pre post n z hpre hz hn
    subst hpre
    rw [List.append_assoc, ← List.drop_drop, List.drop_left]
    have hlt : i < z.length := by
      by_contra hc
      rw [List.getElem?_eq_none (by omega)] at hz
      simp at hz
    rw [List.drop_append, drop_npRepeat]
    have hdrop : z.drop i = (d / n) :: z.drop (i + 1) := by
      rw [List.drop_eq_getElem_cons hlt]
      congr 1
      rw [List.getElem?_eq_getElem hlt] at hz
      simpa using hz
    rw [hdrop, npRepeat_cons, List.append_assoc, List.take_append]
    simp only [List.length_replicate, Nat.sub_self, List.take_zero, List.append_nil]
    rw [List.take_of_length_le (by simp), List.sum_replicate, nsmul_eq_mul]
    have : (n : K) ≠ 0 := by exact_mod_cast hn.ne'
    field_simp
  obtain ⟨bound, os, ny, yt, nx, xt⟩ := b
  simp only at hos hp ⊢
  have hz : (y.map (· / (os : K)))[i]? = some (d / os) := by simp [hi]
  unfold Base.setTimes at h
  rcases bound with _ | ⟨code, k⟩
  · simp only [Except.ok.injEq] at h
    subst h
    simp only [Option.some.injEq] at hx
    simp only [specPadding, Option.some.injEq, Prod.mk.injEq] at hp
    have := key [] [] os _ (by simpa using hp.1) hz hos
    rw [List.nil_append, List.append_nil] at this
    rw [← hx, map_npRepeat]; exact this
  · cases code <;> simp only [] at h
    · split at h
      · rename_i y0 yl h0 hl
        simp only [Except.ok.injEq] at h
        subst h
        simp only [Option.some.injEq] at hx
        simp only [specPadding, Option.some.injEq, Prod.mk.injEq] at hp
        rw [← hx]
        exact key _ _ os _ (by simpa using hp.1) hz hos
      · simp at h
    · split at h
      · rename_i y0 yl h0 hl
        simp only [Except.ok.injEq] at h
        subst h
        simp only [Option.some.injEq] at hx
        simp only [specPadding, Option.some.injEq, Prod.mk.injEq] at hp
        rw [← hx]
        exact key _ _ os _ (by simpa [Nat.mul_comm] using hp.1) hz hos
      · simp at h
    · split at h
      · rename_i yl hl
        simp only [Except.ok.injEq] at h
        subst h
        simp only [Option.some.injEq] at hx
        simp only [specPadding, Option.some.injEq, Prod.mk.injEq] at hp
        have := key [] (List.replicate k (yl / os)) os _ (by simpa using hp.1) hz hos
        rw [List.nil_append] at this
        rw [← hx]; exact this
      · simp at h
    · simp at h

/-- **C02** The total duration is the input duration plus the padding, each padding step having the width
of a refined first (last) step. -/
theorem c02_total_duration [CharZero K] (b b' : Base K) (y x : List K) (ps pe : Nat)
    (hos : 0 < b.oversampling) (h : b.setTimes y = .ok b') (hx : b'.xTimes = some x)
    (hp : specPadding b.bound b.oversampling = some (ps, pe)) :
    x.sum = y.sum + (ps : K) * ((y.head?.getD 0) / b.oversampling)
      + (pe : K) * ((y.getLast?.getD 0) / b.oversampling) := by
  have hdiv : ∀ (n : Nat) (z : List K), 0 < n → (npRepeat n (z.map (· / (n : K)))).sum = z.sum := by
    intro n z hn
    have : (n : K) ≠ 0 := by exact_mod_cast hn.ne'
    rw [sum_npRepeat, nsmul_eq_mul]
    induction z with
    | nil => simp
    | cons a z ih =>
      rw [List.map_cons, List.sum_cons, List.sum_cons, mul_add, ih]
      field_simp
  obtain ⟨bound, os, ny, yt, nx, xt⟩ := b
  simp only at hos hp ⊢
  unfold Base.setTimes at h
  rcases bound with _ | ⟨code, k⟩
  · simp only [Except.ok.injEq] at h
    subst h
    simp only [Option.some.injEq] at hx
    simp only [specPadding, Option.some.injEq, Prod.mk.injEq] at hp
    obtain ⟨rfl, rfl⟩ := hp
    rw [← hx, map_npRepeat, hdiv os y hos]; simp
  · cases code <;> simp only [] at h
    · split at h
      · rename_i y0 yl h0 hl
        simp only [Except.ok.injEq] at h
        subst h
        simp only [Option.some.injEq] at hx
        simp only [specPadding, Option.some.injEq, Prod.mk.injEq] at hp
        obtain ⟨rfl, rfl⟩ := hp
        rw [← hx]
        simp only [List.sum_append, hdiv os y hos, List.sum_replicate, nsmul_eq_mul, h0, hl,
          Option.getD_some]
        ring
      · simp at h
    · split at h
      · rename_i y0 yl h0 hl
        simp only [Except.ok.injEq] at h
        subst h
        simp only [Option.some.injEq] at hx
        simp only [specPadding, Option.some.injEq, Prod.mk.injEq] at hp
        obtain ⟨rfl, rfl⟩ := hp
        rw [← hx]
        simp only [List.sum_append, hdiv os y hos, List.sum_replicate, nsmul_eq_mul, h0, hl,
          Option.getD_some]
        push_cast
        ring
      · simp at h
    · split at h
      · rename_i yl hl
        simp only [Except.ok.injEq] at h
        subst h
        simp only [Option.some.injEq] at hx
        simp only [specPadding, Option.some.injEq, Prod.mk.injEq] at hp
        obtain ⟨rfl, rfl⟩ := hp
        rw [← hx]
        simp only [List.sum_append, hdiv os y hos, List.sum_replicate, nsmul_eq_mul, hl,
          Option.getD_some]
        simp
      · simp at h
    · simp at h

/-- **C02** Without padding the total duration is preserved. -/
theorem c02_duration_preserved [CharZero K] (b b' : Base K) (y x : List K)
    (hos : 0 < b.oversampling) (hb : b.bound = none) (h : b.setTimes y = .ok b')
    (hx : b'.xTimes = some x) : x.sum = y.sum := by
  have := c02_total_duration b b' y x 0 0 hos h hx (by simp [specPadding, hb])
  simpa using this

/-- Non-vacuity of C02: two steps of width 1 and 3, oversampling 2, one padding step at the right. -/
example : ∃ b' x, (Base.init ℚ (some ⟨.rightN, 1⟩) 2).setTimes [1, 3] = .ok b' ∧ b'.xTimes = some x ∧
    x.sum = 11 / 2 ∧ 0 < (Base.init ℚ (some ⟨.rightN, 1⟩) 2).oversampling := by
  refine ⟨_, _, rfl, rfl, ?_, by decide⟩
  norm_num [Base.init, npRepeat]

end

/-! ## C03 absolute times -/

section
variable {K : Type} [Field K] [LinearOrder K] [IsStrictOrderedRing K]

/-- **C03** Absolute times obtained from non-negative steps configure the grid of the steps. -/
theorem c03_absolute_roundtrip (b : Base K) (t : K) (steps : List K) (hs : ∀ d ∈ steps, 0 ≤ d) :
    b.setAbsoluteTimes (cumTimes t steps) = b.setTimes steps := by
  unfold Base.setAbsoluteTimes
  rw [npDiff_cumTimes, if_pos]
  simpa using hs

/-- **C03** Absolute times are accepted only if they are sorted; a rejection raises before the grid is
touched (the model returns no new object). -/
theorem c03_rejects_unsorted (b : Base K) (t : List K) (i : Nat) (u v : K)
    (hu : t[i]? = some u) (hv : t[i + 1]? = some v) (huv : v < u) :
    b.setAbsoluteTimes t = .error .exception := by
  unfold Base.setAbsoluteTimes
  rw [if_neg]
  have key : ∀ (t : List K) (i : Nat), t[i]? = some u → t[i + 1]? = some v → v - u ∈ npDiff t := by
    intro t
    induction t with
    | nil => intro i h; simp at h
    | cons a t ih =>
      intro i h1 h2
      cases t with
      | nil => simp at h2
      | cons a' t =>
        cases i with
        | zero =>
          simp only [List.getElem?_cons_zero, Option.some.injEq, List.getElem?_cons_succ, zero_add]
            at h1 h2
          subst h1; subst h2
          simp [npDiff]
        | succ i =>
          simp only [List.getElem?_cons_succ] at h1 h2
          have := ih i (by simpa using h1) (by simpa using h2)
          simp only [npDiff, List.mem_cons]
          exact Or.inr this
  intro hall
  have hm := key t i hu hv
  have := (List.all_eq_true.mp hall) _ hm
  have h0 : (0 : K) ≤ v - u := by simpa using this
  linarith

/-- Conversely every accepted list of absolute times gives the grid of its differences. -/
theorem c03_accepts_sorted (b : Base K) (t : List K) (ht : t.Pairwise (· ≤ ·)) :
    b.setAbsoluteTimes t = b.setTimes (npDiff t) := by
  unfold Base.setAbsoluteTimes
  rw [if_pos]
  induction t with
  | nil => rfl
  | cons a t ih =>
    cases t with
    | nil => rfl
    | cons a' t =>
      have h1 := List.pairwise_cons.mp ht
      simp only [npDiff, List.all_cons, Bool.and_eq_true, decide_eq_true_eq, sub_nonneg]
      exact ⟨h1.1 a' (by simp), ih h1.2⟩

/-- Non-vacuity of C03. -/
example : cumTimes (5 : ℚ) [1, 2] = [5, 6, 8] ∧ ∀ d ∈ ([1, 2] : List ℚ), 0 ≤ d := by
  constructor
  · norm_num [cumTimes]
  · simp

end
end Verif.Transfer
