import Mathlib.Algebra.BigOperators.Ring.Finset
import Mathlib.Algebra.BigOperators.GroupWithZero.Action
import Mathlib.Algebra.CharZero.Defs
import Mathlib.Algebra.Order.Field.Basic
import Mathlib.Tactic.Ring
import Mathlib.Tactic.FieldSimp
import Mathlib.Tactic.Linarith
import Verif.Transfer.Model

/-! # Helper lemmas for the transfer function theorems (not property statements) -/

namespace Verif

section Repeat
variable {α : Type*}

@[simp] theorem npRepeat_nil (n : Nat) : npRepeat n ([] : List α) = [] := rfl

@[simp] theorem npRepeat_cons (n : Nat) (a : α) (l : List α) :
    npRepeat n (a :: l) = List.replicate n a ++ npRepeat n l := by
  simp [npRepeat]

@[simp] theorem length_npRepeat (n : Nat) (l : List α) : (npRepeat n l).length = n * l.length := by
  induction l with
  | nil => simp
  | cons a l ih => simp [ih, Nat.mul_add]; omega

theorem drop_npRepeat (n i : Nat) (l : List α) :
    (npRepeat n l).drop (i * n) = npRepeat n (l.drop i) := by
  induction l generalizing i with
  | nil => simp
  | cons a l ih =>
    cases i with
    | zero => simp
    | succ i =>
      have : (i + 1) * n = (List.replicate n a).length + i * n := by simp; ring
      rw [npRepeat_cons, this, List.drop_append]
      simp [ih]

theorem take_npRepeat_cons (n : Nat) (a : α) (l : List α) :
    (npRepeat n (a :: l)).take n = List.replicate n a := by
  rw [npRepeat_cons, List.take_append]
  simp

theorem getElem?_npRepeat (n i j : Nat) (hj : j < n) (l : List α) :
    (npRepeat n l)[i * n + j]? = l[i]? := by
  have h : (npRepeat n l)[i * n + j]? = ((npRepeat n l).drop (i * n))[j]? := by
    rw [List.getElem?_drop]
  rw [h, drop_npRepeat]
  cases hl : l.drop i with
  | nil =>
    have : l.length ≤ i := by simpa using hl
    simp [List.getElem?_eq_none this]
  | cons a t =>
    have : l[i]? = some a := by
      have := congrArg (fun l => l[0]?) hl
      simpa using this
    rw [this, npRepeat_cons, List.getElem?_append_left (by simpa using hj)]
    simp [hj]

theorem sum_npRepeat [AddCommMonoid α] (n : Nat) (l : List α) :
    (npRepeat n l).sum = n • l.sum := by
  induction l with
  | nil => simp
  | cons a l ih => simp [ih, nsmul_add, List.sum_replicate]

theorem map_npRepeat {β : Type*} (g : α → β) (n : Nat) (l : List α) :
    (npRepeat n l).map g = npRepeat n (l.map g) := by
  induction l with
  | nil => simp
  | cons a l ih => simp [ih]

end Repeat

section Diff
/-- Cumulative times of a list of steps starting at `t`. -/
def cumTimes {α : Type*} [Add α] (t : α) : List α → List α
  | [] => [t]
  | d :: l => t :: cumTimes (t + d) l

theorem npDiff_cumTimes {α : Type*} [AddCommGroup α] (t : α) (l : List α) :
    npDiff (cumTimes t l) = l := by
  induction l generalizing t with
  | nil => rfl
  | cons d l ih =>
    have h := ih (t + d)
    cases l with
    | nil => simp [cumTimes, npDiff]
    | cons e l =>
      simp only [cumTimes, npDiff] at h ⊢
      rw [h]; simp
end Diff

end Verif
