import Mathlib.Algebra.BigOperators.Fin
import Mathlib.Algebra.Field.Basic
import Mathlib.Algebra.BigOperators.Group.List.Basic
import Verif.Py

/-!
# Model of `qopt/transfer_function.py`

Scalars are elements of an arbitrary field `K` (floating point is not modelled).  A two dimensional
numpy array of shape `(n, c)` is a list of `n` rows `Fin c → K`; an array of shape `(n, f, c)` is a list
of `n` rows `Fin f → Fin c → K`.  The number of control columns is part of the type, so the
column check of `_check_dimensions_datatype` is modelled separately in `Verif.Transfer.Check`.
-/

namespace Verif.Transfer

open Verif

/-- The string part of `bound_type`, transfer_function.py:304-326. -/
inductive BoundCode where
  | n
  | x
  | rightN
  | other (name : String)
  deriving DecidableEq, Repr

/-- `bound_type = (code, number)`; `None` is modelled by `Option`. -/
structure Bound where
  code : BoundCode
  num : Nat
  deriving DecidableEq, Repr

/-- The time related attributes every `TransferFunction` object carries, transfer_function.py:259-279.
`_absolute_y_times`, `name` and the plotting attributes are dropped. -/
structure Base (K : Type) where
  bound : Option Bound
  oversampling : Nat
  numY : Nat
  yTimes : Option (List K)
  numX : Nat
  xTimes : Option (List K)

/-- Attribute values directly after the constructor, transfer_function.py:265-279. -/
def Base.init (K : Type) (bound : Option Bound) (oversampling : Nat) : Base K :=
  { bound := bound, oversampling := oversampling, numY := 0, yTimes := none, numX := 0, xTimes := none }

section Times
variable {K : Type} [Field K]

/-- `num_padding_elements`, transfer_function.py:304-326. -/
def Base.numPadding (b : Base K) : Except PyErr (Nat × Nat) :=
  match b.bound with
  | none => .ok (0, 0)
  | some ⟨.n, k⟩ => .ok (k, k)
  | some ⟨.x, k⟩ => .ok (k * b.oversampling, k * b.oversampling)
  | some ⟨.rightN, k⟩ => .ok (0, k)
  | some ⟨.other _, _⟩ => .error .valueError

/-- `TransferFunction.set_times`, transfer_function.py:351-419, for a one dimensional argument
(`squeeze` is the identity on those; the rejection of higher dimensional arrays is not modelled).
`y_times[0]` and `y_times[-1]` raise `IndexError` on an empty array. -/
def Base.setTimes (b : Base K) (y : List K) : Except PyErr (Base K) :=
  let os : K := (b.oversampling : K)
  let b' : Base K := { b with numY := y.length, yTimes := some y }
  match b.bound with
  | none =>
    .ok { b' with
      numX := b.oversampling * y.length
      xTimes := some ((npRepeat b.oversampling y).map (· / os)) }
  | some ⟨.n, k⟩ =>
    match y.head?, y.getLast? with
    | some y0, some yl =>
      .ok { b' with
        numX := b.oversampling * y.length + 2 * k
        xTimes := some (List.replicate k (y0 / os)
          ++ npRepeat b.oversampling (y.map (· / os))
          ++ List.replicate k (yl / os)) }
    | _, _ => .error .indexError
  | some ⟨.x, k⟩ =>
    match y.head?, y.getLast? with
    | some y0, some yl =>
      .ok { b' with
        numX := b.oversampling * (y.length + 2 * k)
        xTimes := some (List.replicate (k * b.oversampling) (y0 / os)
          ++ npRepeat b.oversampling (y.map (· / os))
          ++ List.replicate (k * b.oversampling) (yl / os)) }
    | _, _ => .error .indexError
  | some ⟨.rightN, k⟩ =>
    match y.getLast? with
    | some yl =>
      .ok { b' with
        numX := b.oversampling * y.length + k
        xTimes := some (npRepeat b.oversampling (y.map (· / os))
          ++ List.replicate k (yl / os)) }
    | none => .error .indexError
  | some ⟨.other _, _⟩ => .error .valueError

/-- `TransferFunction.set_absolute_times`, transfer_function.py:421-445. -/
def Base.setAbsoluteTimes [LE K] [DecidableLE K] (b : Base K) (t : List K) : Except PyErr (Base K) :=
  if (npDiff t).all (fun d => decide (0 ≤ d)) then b.setTimes (npDiff t) else .error .exception

end Times

/-! ## Pulses, tensors and the einsum kernels -/

/-- One row of a pulse: one value per control. -/
abbrev Row (K : Type) (c : Nat) := Fin c → K
/-- Array of shape `(rows, c)`. -/
abbrev Pulse (K : Type) (c : Nat) := List (Row K c)
/-- Array of shape `(rows, f, c)`: the gradients of `f` functions. -/
abbrev Grads (K : Type) (f c : Nat) := List (Fin f → Fin c → K)

/-- Transfer matrix of shape `(nx, ny, c)`; entries outside the shape are never read. -/
structure Tensor (K : Type) (c : Nat) where
  nx : Nat
  ny : Nat
  val : Nat → Nat → Fin c → K

section Kernels
variable {K : Type} [Field K] {c f : Nat}

/-- Row `j` of a list of rows; only used below its length. -/
def rowAt {α : Type} [Zero α] (l : List α) (j : Nat) : α := l.getD j 0

/-- `np.einsum('ijk,jk->ik', T, y)`, transfer_function.py:1090: an axis of length 1 is repeated to fit the other operand,
`ValueError` if the `j` axes differ otherwise. -/
def Tensor.apply (T : Tensor K c) (y : Pulse K c) : Except PyErr (Pulse K c) :=
  if y.length = T.ny then
    .ok ((List.range T.nx).map fun i k => ∑ j ∈ Finset.range T.ny, T.val i j k * rowAt y j k)
  else if T.ny = 1 then
    .ok ((List.range T.nx).map fun i k => ∑ j ∈ Finset.range y.length, T.val i 0 k * rowAt y j k)
  else if y.length = 1 then
    .ok ((List.range T.nx).map fun i k => ∑ j ∈ Finset.range T.ny, T.val i j k * rowAt y 0 k)
  else .error .valueError

/-- `np.einsum('ijk,ifk->jfk', T, g)`, transfer_function.py:1130-1132: an axis of length 1 is repeated, `ValueError` if the `i` axes
differ otherwise. -/
def Tensor.applyAdj (T : Tensor K c) (g : Grads K f c) : Except PyErr (Grads K f c) :=
  if g.length = T.nx then
    .ok ((List.range T.ny).map fun j φ k => ∑ i ∈ Finset.range T.nx, T.val i j k * rowAt g i φ k)
  else if T.nx = 1 then
    .ok ((List.range T.ny).map fun j φ k => ∑ i ∈ Finset.range g.length, T.val 0 j k * rowAt g i φ k)
  else if g.length = 1 then
    .ok ((List.range T.ny).map fun j φ k => ∑ i ∈ Finset.range T.nx, T.val i j k * rowAt g 0 φ k)
  else .error .valueError

/-- A two dimensional array given as list of rows, repeated along a new control axis
(`np.repeat(np.expand_dims(a, 2), num_ctrls, axis=2)`, transfer_function.py:1166-1168, 1547-1548). -/
def Tensor.ofRows (c : Nat) (ny : Nat) (rows : List (List K)) : Tensor K c :=
  { nx := rows.length, ny := ny, val := fun i j _ => (rows.getD i []).getD j 0 }

/-- `np.eye(n)` as list of rows. -/
def npEye (K : Type) [Zero K] [One K] (n : Nat) : List (List K) :=
  (List.range n).map fun i => (List.range n).map fun j => if i = j then 1 else 0

/-- `np.zeros((n, m))` as list of rows. -/
def npZeros (K : Type) [Zero K] (n m : Nat) : List (List K) :=
  List.replicate n (List.replicate m 0)

/-- `OversamplingMTF._calculate_transfer_matrix`, transfer_function.py:1153-1170. -/
def oversamplingTensor (c : Nat) (b : Base K) : Except PyErr (Tensor K c) := do
  let (ps, pe) ← b.numPadding
  let rows := npRepeat b.oversampling (npEye K b.numY)
  pure (Tensor.ofRows c b.numY (npZeros K ps b.numY ++ rows ++ npZeros K pe b.numY))

/-- `OversamplingTF.__call__` after the input check, transfer_function.py:607-639. -/
def oversamplingApply (b : Base K) (y : Pulse K c) : Except PyErr (Pulse K c) := do
  let (ps, pe) ← b.numPadding
  pure (List.replicate ps 0 ++ npRepeat b.oversampling y ++ List.replicate pe 0)

/-- `OversamplingTF.gradient_chain_rule`, transfer_function.py:641-687.  `reshape` raises `ValueError`
when the number of elements does not fit; the sum over the new axis is the sum over each block of
`oversampling` consecutive rows. -/
def oversamplingAdj (b : Base K) (g : Grads K f c) : Except PyErr (Grads K f c) := do
  if g.length = b.numX then
    let (ps, pe) ← b.numPadding
    let cropped := if 0 < pe then sliceNeg ps pe g else g.drop ps
    if cropped.length = b.numY * b.oversampling then
      pure ((List.range b.numY).map fun i =>
        ((cropped.drop (i * b.oversampling)).take b.oversampling).sum)
    else .error .valueError
  else .error .assertionError

end Kernels

/-! ## Transfer function objects -/

/-- A transfer function object together with its mutable state.

* `identity`: `IdentityTF`, transfer_function.py:552-576.
* `oversampling`: `OversamplingTF`, transfer_function.py:579-687.
* `matrix`: any `MatrixTF` that overrides only `_calculate_transfer_matrix`
  (`OversamplingMTF`, `ExponentialMTF`), transfer_function.py:1064-1132; `build` is
  `_calculate_transfer_matrix` as a function of the object's attributes and `cache` is
  `_transfer_matrix`.  `ExponentialMTF.gradient_chain_rule` (1553-1563) lacks the row assertion, so a
  wrong gradient shape raises `ValueError` from `einsum` there instead of `AssertionError`.
  `CustomMTF` (1304-1399) has its own `set_times`, see `Verif.Transfer.Custom`.
* `concat`: `ConcatenateTF`, transfer_function.py:908-979.
* `parallel`: `ParallelTF`, transfer_function.py:982-1061.

The number of controls is the index of the type: `ConcatenateTF` of objects with different
`num_ctrls` is not expressible here (the code accepts it and fails at the first call). -/
inductive TF (K : Type) : Nat → Type
  | identity {c : Nat} (b : Base K) : TF K c
  | oversampling {c : Nat} (b : Base K) : TF K c
  | matrix {c : Nat} (b : Base K) (offset : Option K)
      (build : Base K → Except PyErr (Tensor K c)) (cache : Option (Tensor K c)) : TF K c
  | concat {c : Nat} (b : Base K) (t₁ t₂ : TF K c) : TF K c
  | parallel {c₁ c₂ : Nat} (b : Base K) (t₁ : TF K c₁) (t₂ : TF K c₂) : TF K (c₁ + c₂)

namespace TF
variable {K : Type} [Field K]

/-- The time attributes of an object. -/
def base : {c : Nat} → TF K c → Base K
  | _, identity b => b
  | _, oversampling b => b
  | _, matrix b _ _ _ => b
  | _, concat b _ _ => b
  | _, parallel b _ _ => b

/-- Copies the time attributes from the parts (`_num_y, _y_times` from `src`, `x_times, num_x` from
`dst`), transfer_function.py:975-979 and 1057-1061. -/
def copyTimes (b src dst : Base K) : Base K :=
  { b with numY := src.numY, yTimes := src.yTimes, xTimes := dst.xTimes, numX := dst.numX }

/-- `set_times` of each class: base class transfer_function.py:351-419, `ConcatenateTF`
transfer_function.py:961-979, `ParallelTF` transfer_function.py:1054-1061.  Note that the base class method
does not touch `_transfer_matrix`.  `tf2.set_times(self.tf1.x_times)` raises (plain `Exception`) when
`x_times` is `None`, which cannot happen after a successful `set_times`. -/
def setTimes : {c : Nat} → TF K c → List K → Except PyErr (TF K c)
  | _, identity b, y => do pure (identity (← b.setTimes y))
  | _, oversampling b, y => do pure (oversampling (← b.setTimes y))
  | _, matrix b o m ch, y => do pure (matrix (← b.setTimes y) o m ch)
  | _, concat b t₁ t₂, y => do
      let t₁' ← t₁.setTimes y
      match t₁'.base.xTimes with
      | none => .error .exception
      | some x =>
        let t₂' ← t₂.setTimes x
        pure (concat (copyTimes b t₁'.base t₂'.base) t₁' t₂')
  | _, parallel b t₁ t₂, y => do
      let t₁' ← t₁.setTimes y
      let t₂' ← t₂.setTimes y
      pure (parallel (copyTimes b t₁'.base t₁'.base) t₁' t₂')

/-- `_check_dimensions_datatype`, transfer_function.py:508-549, restricted to the times check and the row
check (the data type and the number of columns are fixed by the type of the pulse). -/
def checkRows {c : Nat} (b : Base K) (y : Pulse K c) : Except PyErr Unit :=
  match b.yTimes with
  | none => .error .runtimeError
  | some _ => if y.length = b.numY then .ok () else .error .indexError

/-- Lazily computed transfer matrix, transfer_function.py:1088-1089. -/
def getMatrix {c : Nat} (b : Base K) (build : Base K → Except PyErr (Tensor K c)) :
    Option (Tensor K c) → Except PyErr (Tensor K c)
  | some T => .ok T
  | none => build b

/-- `x += offset` if an offset is set, transfer_function.py:1091-1092. -/
def addOffset {c : Nat} (offset : Option K) (x : Pulse K c) : Pulse K c :=
  match offset with
  | none => x
  | some o => x.map fun r k => r k + o

/-- First / second column group of every row (`y[:, :n]`, `y[:, n:]`), transfer_function.py:1037-1038. -/
def leftCols {c₁ c₂ : Nat} (y : Pulse K (c₁ + c₂)) : Pulse K c₁ :=
  y.map fun r k => r (Fin.castAdd c₂ k)
@[inherit_doc leftCols]
def rightCols {c₁ c₂ : Nat} (y : Pulse K (c₁ + c₂)) : Pulse K c₂ :=
  y.map fun r k => r (Fin.natAdd c₁ k)

/-- `np.concatenate((a, b), axis=1)`: `ValueError` for different numbers of rows. -/
def hcat {c₁ c₂ : Nat} (a : Pulse K c₁) (b : Pulse K c₂) : Except PyErr (Pulse K (c₁ + c₂)) :=
  if a.length = b.length then .ok (List.zipWith (fun r s => Fin.append r s) a b)
  else .error .valueError

/-- The same for the last axis of gradient arrays, transfer_function.py:1048-1052. -/
def leftGrads {f c₁ c₂ : Nat} (g : Grads K f (c₁ + c₂)) : Grads K f c₁ :=
  g.map fun r φ k => r φ (Fin.castAdd c₂ k)
@[inherit_doc leftGrads]
def rightGrads {f c₁ c₂ : Nat} (g : Grads K f (c₁ + c₂)) : Grads K f c₂ :=
  g.map fun r φ k => r φ (Fin.natAdd c₁ k)
@[inherit_doc hcat]
def hcatG {f c₁ c₂ : Nat} (a : Grads K f c₁) (b : Grads K f c₂) : Except PyErr (Grads K f (c₁ + c₂)) :=
  if a.length = b.length then .ok (List.zipWith (fun r s φ => Fin.append (r φ) (s φ)) a b)
  else .error .valueError

/-- `__call__` of each class; returns the object (whose matrix cache may have been filled) and the
transferred pulse.  `IdentityTF` 569-571 (no check), `OversamplingTF` 607-639, `MatrixTF` 1066-1093,
`ConcatenateTF` 943-946, `ParallelTF` 1028-1040. -/
def call : {c : Nat} → TF K c → Pulse K c → Except PyErr (TF K c × Pulse K c)
  | _, identity b, y => .ok (identity b, y)
  | _, oversampling b, y => do
      checkRows b y
      let x ← oversamplingApply b y
      pure (oversampling b, x)
  | _, matrix b o m ch, y => do
      checkRows b y
      let T ← getMatrix b m ch
      let x ← T.apply y
      pure (matrix b o m (some T), addOffset o x)
  | _, concat b t₁ t₂, y => do
      checkRows b y
      let (t₁', x₁) ← t₁.call y
      let (t₂', x₂) ← t₂.call x₁
      pure (concat b t₁' t₂', x₂)
  | _, parallel b t₁ t₂, y => do
      checkRows b y
      let (t₁', x₁) ← t₁.call (leftCols y)
      let (t₂', x₂) ← t₂.call (rightCols y)
      let x ← hcat x₁ x₂
      pure (parallel b t₁' t₂', x)

/-- `gradient_chain_rule` of each class: `IdentityTF` 573-576, `OversamplingTF` 641-687, `MatrixTF`
1114-1132, `ConcatenateTF` 948-955, `ParallelTF` 1042-1052. -/
def grad {f : Nat} : {c : Nat} → TF K c → Grads K f c → Except PyErr (TF K c × Grads K f c)
  | _, identity b, g => .ok (identity b, g)
  | _, oversampling b, g => do
      let h ← oversamplingAdj b g
      pure (oversampling b, h)
  | _, matrix b o m ch, g =>
      if g.length = b.numX then do
        let T ← getMatrix b m ch
        let h ← T.applyAdj g
        pure (matrix b o m (some T), h)
      else .error .assertionError
  | _, concat b t₁ t₂, g => do
      let (t₂', g₂) ← t₂.grad g
      let (t₁', g₁) ← t₁.grad g₂
      pure (concat b t₁' t₂', g₁)
  | _, parallel b t₁ t₂, g => do
      let (t₁', g₁) ← t₁.grad (leftGrads g)
      let (t₂', g₂) ← t₂.grad (rightGrads g)
      let h ← hcatG g₁ g₂
      pure (parallel b t₁' t₂', h)

end TF

end Verif.Transfer
