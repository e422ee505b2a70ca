import Verif.Transfer.ComposeThms

/-! # Model of the matrix transfer function classes including `ConcatenateMTF` and `ParallelMTF`

`Verif.Transfer.Model` covers the leaf classes; here the composite matrix classes are added with their own
cached `_transfer_matrix` and their own `offset`. -/

namespace Verif.Transfer
open Verif

/-- Matrix transfer function objects.

* `leaf`: `OversamplingMTF`, `ExponentialMTF` (see `TF.matrix`).
* `concat`: `ConcatenateMTF`, transfer_function.py:1173-1241; `_transfer_matrix` of such an object is set in
  the constructor (to `None`) and nowhere else, so it carries no cache.
* `parallel`: `ParallelMTF`, transfer_function.py:1244-1301, with its cache. -/
inductive MTF (K : Type) : Nat → Type
  | leaf {c : Nat} (b : Base K) (offset : Option K)
      (build : Base K → Except PyErr (Tensor K c)) (cache : Option (Tensor K c)) : MTF K c
  | concat {c : Nat} (b : Base K) (offset : Option K) (t₁ t₂ : MTF K c) : MTF K c
  | parallel {c₁ c₂ : Nat} (b : Base K) (offset : Option K) (cache : Option (Tensor K (c₁ + c₂)))
      (t₁ : MTF K c₁) (t₂ : MTF K c₂) : MTF K (c₁ + c₂)

section
variable {K : Type} [Field K]

/-- `np.einsum('ijk,jlk->ilk', T₂, T₁)`, transfer_function.py:1210-1212: an axis of length 1 is repeated, `ValueError` if the `j`
axes differ otherwise. -/
def Tensor.comp {c : Nat} (T₂ T₁ : Tensor K c) : Except PyErr (Tensor K c) :=
  if T₂.ny = T₁.nx then
    .ok ⟨T₂.nx, T₁.ny, fun i l k => ∑ j ∈ Finset.range T₂.ny, T₂.val i j k * T₁.val j l k⟩
  else if T₂.ny = 1 then
    .ok ⟨T₂.nx, T₁.ny, fun i l k => ∑ j ∈ Finset.range T₁.nx, T₂.val i 0 k * T₁.val j l k⟩
  else if T₁.nx = 1 then
    .ok ⟨T₂.nx, T₁.ny, fun i l k => ∑ j ∈ Finset.range T₂.ny, T₂.val i j k * T₁.val 0 l k⟩
  else .error .valueError

/-- `np.concatenate((T₁, T₂), axis=2)`, transfer_function.py:1291-1292. -/
def Tensor.concatAxis2 {c₁ c₂ : Nat} (T₁ : Tensor K c₁) (T₂ : Tensor K c₂) :
    Except PyErr (Tensor K (c₁ + c₂)) :=
  if T₁.nx = T₂.nx ∧ T₁.ny = T₂.ny then
    .ok ⟨T₁.nx, T₁.ny, fun i j => Fin.append (T₁.val i j) (T₂.val i j)⟩
  else .error .valueError

namespace MTF

/-- Time attributes. -/
def base : {c : Nat} → MTF K c → Base K
  | _, leaf b _ _ _ => b
  | _, concat b _ _ _ => b
  | _, parallel b _ _ _ _ => b

/-- `offset` attribute. -/
def offset : {c : Nat} → MTF K c → Option K
  | _, leaf _ o _ _ => o
  | _, concat _ o _ _ => o
  | _, parallel _ o _ _ _ => o

/-- `ConcatenateMTF.__init__`, transfer_function.py:1190-1205: the offsets are added (`None` counts as 0),
the oversamplings multiplied, the bound type is left `None`. -/
def mkConcat {c : Nat} (t₁ t₂ : MTF K c) : MTF K c :=
  concat
    { bound := none, oversampling := t₁.base.oversampling * t₂.base.oversampling,
      numY := t₁.base.numY, yTimes := t₁.base.yTimes, numX := t₂.base.numX, xTimes := t₂.base.xTimes }
    (some (t₁.offset.getD 0 + t₂.offset.getD 0)) t₁ t₂

/-- `ParallelMTF.__init__`, transfer_function.py:1262-1287: the offset is always `None`. -/
def mkParallel {c₁ c₂ : Nat} (t₁ : MTF K c₁) (t₂ : MTF K c₂) : Except PyErr (MTF K (c₁ + c₂)) :=
  if t₁.base.numY ≠ t₂.base.numY then .error .assertionError
  else if t₁.base.bound ≠ t₂.base.bound then .error .valueError
  else if t₁.base.oversampling ≠ t₂.base.oversampling then .error .valueError
  else .ok (parallel t₁.base none none t₁ t₂)

/-- `set_times`: base class transfer_function.py:351-419, `ConcatenateMTF` 1214-1232, `ParallelMTF`
1294-1301. -/
def setTimes : {c : Nat} → MTF K c → List K → Except PyErr (MTF K c)
  | _, leaf b o m ch, y => do pure (leaf (← b.setTimes y) o m ch)
  | _, concat b o t₁ t₂, y => do
      let t₁' ← t₁.setTimes y
      match t₁'.base.xTimes with
      | none => .error .exception
      | some x =>
        let t₂' ← t₂.setTimes x
        pure (concat (TF.copyTimes b t₁'.base t₂'.base) o t₁' t₂')
  | _, parallel b o ch t₁ t₂, y => do
      let t₁' ← t₁.setTimes y
      let t₂' ← t₂.setTimes y
      pure (parallel (TF.copyTimes b t₁'.base t₁'.base) o ch t₁' t₂')

/-- The `transfer_matrix` property: base class transfer_function.py:1095-1108 (computes the cached matrix if
needed), `ConcatenateMTF` 1207-1212. -/
def transferMatrix : {c : Nat} → MTF K c → Except PyErr (MTF K c × Tensor K c)
  | _, leaf b o m ch => do
      let T ← TF.getMatrix b m ch
      pure (leaf b o m (some T), T)
  | _, concat b o t₁ t₂ => do
      let (t₂', T₂) ← t₂.transferMatrix
      let (t₁', T₁) ← t₁.transferMatrix
      let T ← T₂.comp T₁
      pure (concat b o t₁' t₂', T)
  | _, parallel b o ch t₁ t₂ =>
      match ch with
      | some T => .ok (parallel b o (some T) t₁ t₂, T)
      | none => do
        let (t₁', T₁) ← t₁.transferMatrix
        let (t₂', T₂) ← t₂.transferMatrix
        let T ← T₁.concatAxis2 T₂
        pure (parallel b o (some T) t₁' t₂', T)

/-- `_calculate_transfer_matrix`: leaf classes compute and store; `ConcatenateMTF` 1239-1241 only asks its
parts to compute; `ParallelMTF` 1289-1292 computes and stores. -/
def calculate : {c : Nat} → MTF K c → Except PyErr (MTF K c)
  | _, leaf b o m _ => do pure (leaf b o m (some (← m b)))
  | _, concat b o t₁ t₂ => do
      let t₁' ← t₁.calculate
      let t₂' ← t₂.calculate
      pure (concat b o t₁' t₂')
  | _, parallel b o _ t₁ t₂ => do
      let (t₁', T₁) ← t₁.transferMatrix
      let (t₂', T₂) ← t₂.transferMatrix
      let T ← T₁.concatAxis2 T₂
      pure (parallel b o (some T) t₁' t₂')

/-- The attribute `_transfer_matrix`. -/
def cached : {c : Nat} → MTF K c → Option (Tensor K c)
  | _, leaf _ _ _ ch => ch
  | _, concat _ _ _ _ => none
  | _, parallel _ _ ch _ _ => ch

/-- `MatrixTF.__call__`, transfer_function.py:1066-1093, inherited by every matrix class.  `np.einsum` with
`None` in place of the matrix raises `ValueError`. -/
def call {c : Nat} (t : MTF K c) (y : Pulse K c) : Except PyErr (MTF K c × Pulse K c) := do
  TF.checkRows t.base y
  let t' ← match t.cached with
    | some _ => pure t
    | none => t.calculate
  match t'.cached with
  | none => .error .valueError
  | some T =>
    let x ← T.apply y
    pure (t', TF.addOffset t'.offset x)

/-- The array returned by a call. -/
def run {c : Nat} (t : MTF K c) (y : Pulse K c) : Except PyErr (Pulse K c) := (t.call y).map Prod.snd

end MTF
end
end Verif.Transfer
