import Verif.Transfer.ComposeThms

/-! # Input validation of transfer functions (model and property theorems C15) -/

namespace Verif.Transfer
open Verif TF

/-- The data types a caller can hand over: the two accepted ones and everything else
(transfer_function.py:516). -/
inductive DType where
  | float64
  | float32
  | other (name : String)
  deriving DecidableEq, Repr

/-- A numpy array as the caller hands it over: data type, shape and elements in row major order. -/
structure RawArray (K : Type) where
  dtype : DType
  shape : List Nat
  data : List K

section
variable {K : Type} [Field K]

/-- `_check_dimensions_datatype`, transfer_function.py:508-549, with all branches in the order of the
code. -/
def checkDims (b : Base K) (numCtrls : Nat) (a : RawArray K) : Except PyErr Unit :=
  match b.yTimes with
  | none => .error .runtimeError
  | some _ =>
    match a.dtype with
    | .other _ => .error .typeError
    | _ =>
      match a.shape with
      | [rows, cols] =>
        if rows = b.numY then
          if cols = numCtrls then .ok () else .error .indexError
        else .error .indexError
      | _ => .error .indexError

/-- The rows of a two dimensional array with `c` columns. -/
def RawArray.toPulse (a : RawArray K) (c : Nat) : Pulse K c :=
  (List.range (a.shape.headD 0)).map fun i k => a.data.getD (i * c + k) 0

/-- `__call__` on a caller's array: `IdentityTF` (569-571) returns its argument unchecked (here read as
array with `c` columns), every other class runs `_check_dimensions_datatype` first.  The parts of a
composed object receive arrays of type float64, so only their row checks (contained in `call`)
matter. -/
def TF.callRaw : {c : Nat} → TF K c → RawArray K → Except PyErr (TF K c × Pulse K c)
  | c, .identity b, a => (TF.identity b).call (a.toPulse c)
  | c, t, a => do
    checkDims t.base c a
    t.call (a.toPulse c)

/-- Objects whose `__call__` validates its argument: all but a bare `IdentityTF`. -/
def TF.Validates {c : Nat} (t : TF K c) : Prop := ∀ b, t ≠ .identity b

theorem TF.callRaw_eq {c : Nat} (t : TF K c) (hv : t.Validates) (a : RawArray K) :
    t.callRaw a = (do checkDims t.base c a; t.call (a.toPulse c)) := by
  cases t with
  | identity b => exact absurd rfl (hv b)
  | oversampling b => rfl
  | matrix b o m ch => rfl
  | concat b t u => rfl
  | parallel b t u => rfl

/-- A call on an object without times. -/
theorem c15_no_times {c : Nat} (t : TF K c) (hv : t.Validates) (a : RawArray K) (h : t.base.yTimes = none) :
    t.callRaw a = .error .runtimeError := by
  simp [callRaw_eq _ hv, checkDims, h, bind, Except.bind]

/-- **C15** What a call on an array reports, decided from the caller's data only; the clauses exclude each
other, so they fix the precedence: missing times before data type before shape, and everything else is
a pulse with `num_x` rows.  `t` is any unused, possibly nested, object that got the times `ys`. -/
theorem c15_validation {c : Nat} (t t' : TF K c) (ys : List K) (hu : Usable t) (ht : t.setTimes ys = .ok t')
    (hv : t'.Validates) (a : RawArray K) :
    ((∃ n, a.dtype = .other n) → t'.callRaw a = .error .typeError) ∧
    ((a.dtype = .float64 ∨ a.dtype = .float32) → a.shape ≠ [ys.length, c] →
      t'.callRaw a = .error .indexError) ∧
    ((a.dtype = .float64 ∨ a.dtype = .float32) → a.shape = [ys.length, c] →
      ∃ t'' x, t'.callRaw a = .ok (t'', x) ∧ x.length = t'.base.numX) := by
  obtain ⟨hyt, hn, -⟩ := setTimes_grid _ _ _ ht
  refine ⟨?_, ?_, ?_⟩
  · rintro ⟨n, h⟩
    simp [callRaw_eq _ hv, checkDims, hyt, h, bind, Except.bind]
  · intro h hs
    have : checkDims t'.base c a = .error .indexError := by
      unfold checkDims
      rw [hyt]
      have key : (match a.shape with
        | [rows, cols] =>
          if rows = t'.base.numY then if cols = c then (Except.ok () : Except PyErr Unit) else .error PyErr.indexError
          else .error PyErr.indexError
        | _ => .error PyErr.indexError) = .error .indexError := by
        split
        · rename_i rows cols hsh
          rw [hsh] at hs
          split_ifs with h1 h2
          · exact absurd (by rw [h1, h2, hn]) hs
          · rfl
          · rfl
        · rfl
      rcases h with h | h <;> rw [h] <;> exact key
    simp only [callRaw_eq _ hv, this, bind, Except.bind]
  · intro h hs
    have hc : checkDims t'.base c a = .ok () := by
      unfold checkDims
      rw [hyt, hs, hn]
      rcases h with h | h <;> rw [h] <;> simp
    have hl : (a.toPulse c).length = ys.length := by simp [RawArray.toPulse, hs]
    obtain ⟨x, hx, hxl⟩ := (c15_shape t t' ys hu ht).1 _ hl
    obtain ⟨⟨t'', x'⟩, h1, h2⟩ := map_ok hx
    simp only at h2
    subst h2
    exact ⟨t'', x', by simp only [callRaw_eq _ hv, hc, bind, Except.bind, h1], hxl⟩

/-- The precedence also holds for objects in any state: a missing `set_times` is reported whatever the
array looks like, a wrong data type whatever its shape is, and a rejected call is rejected before
anything is computed, so that the rejection depends only on the times and the array. -/
theorem c15_precedence {c : Nat} (t : TF K c) (hv : t.Validates) (a : RawArray K) :
    (t.base.yTimes = none → t.callRaw a = .error .runtimeError) ∧
    (∀ ys, t.base.yTimes = some ys → (∃ n, a.dtype = .other n) → t.callRaw a = .error .typeError) ∧
    (∀ ys, t.base.yTimes = some ys → (∀ n, a.dtype ≠ .other n) → (∀ r k, a.shape = [r, k] → r ≠ t.base.numY ∨
      k ≠ c) → t.callRaw a = .error .indexError) := by
  refine ⟨c15_no_times t hv a, ?_, ?_⟩
  · rintro ys hy ⟨n, h⟩
    simp [callRaw_eq _ hv, checkDims, hy, h, bind, Except.bind]
  · intro ys hy hd hs
    have : checkDims t.base c a = .error .indexError := by
      unfold checkDims
      rw [hy]
      have key : (match a.shape with
        | [rows, cols] =>
          if rows = t.base.numY then if cols = c then (Except.ok () : Except PyErr Unit) else .error PyErr.indexError
          else .error PyErr.indexError
        | _ => .error PyErr.indexError) = .error .indexError := by
        split
        · rename_i rows cols hsh
          rcases hs _ _ hsh with h | h
          · rw [if_neg h]
          · rw [if_neg h]; simp
        · rfl
      cases hdt : a.dtype with
      | float64 => exact key
      | float32 => exact key
      | other n => exact absurd hdt (hd n)
    simp only [callRaw_eq _ hv, this, bind, Except.bind]

/-- Non-vacuity: a two stage object with times, an accepted array and the three kinds of rejected ones. -/
example : ∃ (t t' : TF ℚ 2), Usable t ∧ t'.Validates ∧ t.setTimes [1, 2] = .ok t' ∧
    (∃ x, (t'.callRaw ⟨.float32, [2, 2], [1, 2, 3, 4]⟩).map Prod.snd = .ok x ∧ x.length = 6) ∧
    t'.callRaw ⟨.other "int64", [3], [1, 2, 3]⟩ = .error .typeError ∧
    t'.callRaw ⟨.float64, [3], [1, 2, 3]⟩ = .error .indexError ∧
    t'.callRaw ⟨.float64, [3, 2], [1, 2, 3, 4, 5, 6]⟩ = .error .indexError ∧
    t.callRaw ⟨.other "int64", [3], [1, 2, 3]⟩ = .error .runtimeError := by
  refine ⟨.oversampling (Base.init ℚ (some ⟨.n, 1⟩) 2), _, ?_, fun b => by simp, rfl, ⟨_, rfl, rfl⟩, rfl, rfl, rfl, rfl⟩
  simp [Usable]

end
end Verif.Transfer
