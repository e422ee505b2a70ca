import Verif.Optim.Model
import Verif.Sim.Lemmas
import Mathlib.Data.List.GetD
import Mathlib.Tactic.IntervalCases
import Mathlib.Tactic.FinCases

/-!
# C59: the parameter vector and the pulse
-/

namespace Verif.Optim
open Verif Verif.Transfer

theorem flatten_getD {α : Type} (d : α) (T : Nat) : ∀ (l : List (List α)) (c t : Nat), (∀ r ∈ l, r.length = T) → t < T →
    l.flatten.getD (c * T + t) d = (l.getD c []).getD t d
  | [], c, t, _, _ => by simp
  | r :: l, 0, t, h, ht => by
    have hr : r.length = T := h r (by simp)
    simp [List.getElem?_append_left (by omega : t < r.length)]
  | r :: l, c + 1, t, h, ht => by
    have hr : r.length = T := h r (by simp)
    rw [List.flatten_cons, List.getD_append_right _ _ _ _ (by rw [hr]; nlinarith)]
    have e : (c + 1) * T + t - r.length = c * T + t := by rw [hr, Nat.succ_mul]; omega
    rw [e, flatten_getD d T l c t (fun r' h' => h r' (by simp [h'])) ht]
    simp

theorem flattenT_length {α : Type} {C : Nat} (y : List (Fin C → α)) : (flattenT y).length = C * y.length := by
  simp [flattenT, List.length_flatMap]

theorem flattenT_getD {α : Type} {C : Nat} (y : List (Fin C → α)) (d : α) (T : Nat) (hT : y.length = T) (c : Fin C) (t : Nat) (ht : t < y.length) :
    (flattenT y).getD (c * T + t) d = y[t] c := by
  subst hT
  unfold flattenT
  rw [List.flatMap_def, flatten_getD d y.length _ _ _ (by simp) ht]
  simp [List.getD_eq_getElem?_getD, List.getElem?_map, ht]

/-- Every index of a flat vector belongs to a unique control and time. -/
theorem index_split {T C k : Nat} (hk : k < C * T) : k / T < C ∧ k % T < T ∧ k / T * T + k % T = k := by
  have hT : 0 < T := Nat.pos_of_ne_zero (by rintro rfl; simp at hk)
  exact ⟨(Nat.div_lt_iff_lt_mul hT).2 hk, Nat.mod_lt _ hT, Nat.div_add_mod' k T⟩

theorem index_lt {T C c t : Nat} (hc : c < C) (ht : t < T) : c * T + t < C * T := by
  calc c * T + t < c * T + T := by omega
    _ = (c + 1) * T := by ring
    _ ≤ C * T := Nat.mul_le_mul_right _ hc

theorem index_inj {T c c' t t' : Nat} (ht : t < T) (ht' : t' < T) (h : c * T + t = c' * T + t') : c = c' ∧ t = t' := by
  have hT : 0 < T := by omega
  have h1 : (c * T + t) / T = c := by rw [Nat.mul_comm, Nat.mul_add_div hT, Nat.div_eq_of_lt ht]; simp
  have h2 : (c' * T + t') / T = c' := by rw [Nat.mul_comm, Nat.mul_add_div hT, Nat.div_eq_of_lt ht']; simp
  have : c = c' := by rw [← h1, ← h2, h]
  subst this
  exact ⟨rfl, by omega⟩

section
variable {α : Type} [Zero α]

/-- **C59**: reshaping the flattened pulse gives the pulse back. -/
theorem c59_unflatten_flatten {C : Nat} (y : List (Fin C → α)) : unflatten y.length C (flattenT y) = .ok y := by
  unfold unflatten
  rw [if_pos (flattenT_length y)]
  congr 1
  refine List.ext_getElem (by simp) fun t h1 h2 => ?_
  simp only [List.getElem_map, List.getElem_range]
  funext c
  exact flattenT_getD y 0 _ rfl c t h2

theorem unflatten_ok {T C : Nat} {v : List α} {y : List (Fin C → α)} (h : unflatten T C v = .ok y) :
    v.length = C * T ∧ y.length = T ∧ ∀ (t : Nat) (ht : t < y.length) (c : Fin C), y[t] c = v.getD (c * T + t) 0 := by
  unfold unflatten at h
  split at h
  next hv =>
    cases h
    exact ⟨hv, by simp, fun t ht c => by simp⟩
  next => cases h

/-- **C59**: flattening the reshaped vector gives the vector back. -/
theorem c59_flatten_unflatten {T C : Nat} {v : List α} {y : List (Fin C → α)} (h : unflatten T C v = .ok y) : flattenT y = v := by
  obtain ⟨hv, hy, hget⟩ := unflatten_ok h
  have hl : (flattenT y).length = v.length := by rw [flattenT_length, hy, hv]
  refine List.ext_getElem hl fun k h1 h2 => ?_
  obtain ⟨a, b, e⟩ := index_split (T := T) (C := C) (k := k) (by omega)
  rw [← List.getD_eq_getElem _ 0 h1, ← List.getD_eq_getElem _ 0 h2, ← e]
  have := flattenT_getD y 0 T hy ⟨k / T, a⟩ (k % T) (by omega)
  rw [this, hget]

/-- **C59**: a vector is accepted exactly when it has one entry for each time and control. -/
theorem c59_accepted (T C : Nat) (v : List α) : (∃ y, unflatten T C v = .ok y) ↔ v.length = C * T := by
  unfold unflatten
  split
  next h => exact ⟨fun _ => h, fun _ => ⟨_, rfl⟩⟩
  next h => exact ⟨fun ⟨_, e⟩ => by simp at e, fun e => absurd e h⟩

end

/-- **C59** (bounds): bounds flattened like the pulse constrain exactly the pulse entry they were given for. -/
theorem c59_bounds {C : Nat} (lo hi y : Pulse ℝ C) (h1 : lo.length = y.length) (h2 : hi.length = y.length) :
    (∀ k, k < (flattenT y).length → (flattenT lo).getD k 0 ≤ (flattenT y).getD k 0 ∧ (flattenT y).getD k 0 ≤ (flattenT hi).getD k 0) ↔
      ∀ (t : Nat) (ht : t < y.length) (c : Fin C), (lo[t]'(by omega)) c ≤ y[t] c ∧ y[t] c ≤ (hi[t]'(by omega)) c := by
  constructor
  · intro h t ht c
    have hk := h (c * y.length + t) (by rw [flattenT_length]; exact index_lt c.2 ht)
    have e1 := flattenT_getD lo 0 y.length h1 c t (by omega)
    have e2 := flattenT_getD hi 0 y.length h2 c t (by omega)
    rw [flattenT_getD y 0 _ rfl c t ht, e1, e2] at hk
    exact hk
  · intro h k hk
    obtain ⟨a, b, e⟩ := index_split (T := y.length) (C := C) (k := k) (by rw [flattenT_length] at hk; exact hk)
    have hk := h (k % y.length) b ⟨k / y.length, a⟩
    have e0 := flattenT_getD y 0 _ rfl ⟨k / y.length, a⟩ (k % y.length) b
    have e1 := flattenT_getD lo 0 _ h1 ⟨k / y.length, a⟩ (k % y.length) (by omega)
    have e2 := flattenT_getD hi 0 _ h2 ⟨k / y.length, a⟩ (k % y.length) (by omega)
    simp only [e] at e0 e1 e2
    rw [e0, e1, e2]
    exact hk

theorem flattenJac_get {F C : Nat} (J : Grads ℝ F C) (f : Fin F) (c : Fin C) (t : Nat) (ht : t < J.length) :
    ((flattenJac J).getD f []).getD (c * J.length + t) 0 = J[t] f c := by
  have h : (flattenJac J).getD f [] = flattenT (J.map fun r => r f) := by
    simp [flattenJac, List.getD_eq_getElem?_getD]
  rw [h]
  have := flattenT_getD (J.map fun r => r f) 0 J.length (by simp) c t (by simpa using ht)
  simpa using this

theorem unflatten_set {T C : Nat} {v : List ℝ} {y : Pulse ℝ C} (h : unflatten T C v = .ok y) (t : Nat) (ht : t < T) (c : Fin C) (x : ℝ) :
    unflatten T C (v.set (c * T + t) x) = .ok (Sim.shift y t c (x - v.getD (c * T + t) 0)) := by
  obtain ⟨hv, hy, hget⟩ := unflatten_ok h
  have hk : (c : Nat) * T + t < v.length := by rw [hv]; exact index_lt c.2 ht
  unfold unflatten
  rw [if_pos (by simpa using hv)]
  congr 1
  refine List.ext_getElem (by simp [Sim.shift_length, hy]) fun t' h1 h2 => ?_
  have ht' : t' < T := by simpa using h1
  rw [List.getElem_map, List.getElem_range]
  have hs : (Sim.shift y t c (x - v.getD (c * T + t) 0))[t'] =
      if t = t' then Function.update (y[t']'(by omega)) c ((y[t']'(by omega)) c + (x - v.getD (c * T + t) 0)) else y[t']'(by omega) :=
    List.getElem_modify _ _ _ _ h2
  rw [hs]
  funext c'
  by_cases e : (c' : Nat) * T + t' = c * T + t
  · obtain ⟨e1, e2⟩ := index_inj ht' ht e
    have e1 : c' = c := Fin.ext e1
    subst e1 e2
    rw [if_pos rfl, Function.update_self, hget]
    rw [List.getD_eq_getElem _ _ (by simpa using hk)]
    simp
  · rw [List.getD_eq_getElem?_getD, List.getElem?_set_ne (Ne.symm e), ← List.getD_eq_getElem?_getD]
    by_cases e2 : t = t'
    · subst e2
      have : c' ≠ c := fun e3 => e (by rw [e3])
      rw [if_pos rfl, Function.update_of_ne this, hget]
    · rw [if_neg e2, hget]

/-- The cost values as a function of the vector the numerical optimiser varies. -/
def ofVector {F C : Nat} (T : Nat) (cost : Pulse ℝ C → Fin F → ℝ) (v : List ℝ) (f : Fin F) : ℝ :=
  match unflatten T C v with
  | .ok y => cost y f
  | .error _ => 0

/-- **C59** (Jacobian columns): when the simulator's Jacobian consists of the derivatives with respect to the pulse entries, then
column `k` of the array handed to the numerical optimiser is the derivative with respect to entry `k` of its vector. -/
theorem c59_jacobian_columns {T F C : Nat} (cost : Pulse ℝ C → Fin F → ℝ) (v : List ℝ) (y : Pulse ℝ C) (J : Grads ℝ F C)
    (h : unflatten T C v = .ok y) (hJ : J.length = T)
    (hd : ∀ (t : Nat) (ht : t < J.length) (c : Fin C) (f : Fin F), HasDerivAt (fun x => cost (Sim.shift y t c x) f) (J[t] f c) 0)
    (k : Nat) (hk : k < v.length) (f : Fin F) :
    HasDerivAt (fun x => ofVector T cost (v.set k x) f) (((flattenJac J).getD f []).getD k 0) v[k] := by
  obtain ⟨hv, hy, hget⟩ := unflatten_ok h
  obtain ⟨a, b, e⟩ := index_split (T := T) (C := C) (k := k) (by omega)
  have hj := flattenJac_get J f ⟨k / T, a⟩ (k % T) (by omega)
  simp only [hJ, e] at hj
  rw [hj]
  have hf : (fun x => ofVector T cost (v.set k x) f) = fun x => cost (Sim.shift y (k % T) ⟨k / T, a⟩ (x - v[k])) f := by
    funext x
    have := unflatten_set h (k % T) b ⟨k / T, a⟩ x
    simp only [e, List.getD_eq_getElem _ _ hk] at this
    simp [ofVector, this]
  rw [hf]
  have h0 := hd (k % T) (by omega) ⟨k / T, a⟩ f
  have h1 : HasDerivAt (fun x : ℝ => x - v[k]) 1 v[k] := (hasDerivAt_id' _).sub_const _
  have h2 := HasDerivAt.comp (h₂ := fun x => cost (Sim.shift y (k % T) ⟨k / T, a⟩ x) f) (v[k]) (by simpa using h0) h1
  rw [mul_one] at h2
  exact h2

/-! ## Examples -/

/-- Three times, two controls. -/
example : flattenT ([![1, 2], ![3, 4], ![5, 6]] : List (Fin 2 → ℤ)) = [1, 3, 5, 2, 4, 6] := by decide
example : unflatten 3 2 ([1, 3, 5, 2, 4, 6] : List ℤ) = .ok [![1, 2], ![3, 4], ![5, 6]] := c59_unflatten_flatten (α := ℤ) [![1, 2], ![3, 4], ![5, 6]]
example : unflatten 3 2 ([1, 3, 5, 2, 4] : List ℤ) = .error .valueError := by decide

/-- The hypotheses of `c59_jacobian_columns`: the cost `y[0,1] * y[1,0]`. -/
example : HasDerivAt (fun x => ofVector (F := 1) (C := 2) 2 (fun y _ => rowAt y 0 1 * rowAt y 1 0) (([1, 2, 3, 4] : List ℝ).set 1 x) 0) 3 2 := by
  have h : unflatten 2 2 [1, 2, 3, 4] = .ok ([![1, 3], ![2, 4]] : Pulse ℝ 2) := by
    simp only [unflatten]
    rw [if_pos (by simp)]
    simp [List.range_succ]
    constructor <;> · funext c; fin_cases c <;> simp
  have := c59_jacobian_columns (T := 2) (F := 1) (C := 2) (fun y _ => rowAt y 0 1 * rowAt y 1 0) [1, 2, 3, 4] [![1, 3], ![2, 4]]
    [fun _ => ![0, 2], fun _ => ![3, 0]] h rfl ?_ 1 (by simp) 0
  · have e : ((flattenJac ([fun _ => ![0, 2], fun _ => ![3, 0]] : Grads ℝ 1 2)).getD 0 []).getD 1 0 = 3 := by
      simp [flattenJac, flattenT, List.finRange_succ]
    exact this.congr_deriv e
  · intro t ht c f
    have hid : HasDerivAt (fun x : ℝ => x) 1 0 := hasDerivAt_id' 0
    have ht2 : t < 2 := ht
    interval_cases t <;> fin_cases c <;> simp [Sim.shift, rowAt, Function.update]
    · exact hasDerivAt_const _ _
    · simpa using (hid.const_add 3).mul_const 2
    · simpa using (hid.const_add 2).const_mul 3
    · exact hasDerivAt_const _ _

end Verif.Optim
