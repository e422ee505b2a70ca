import Verif.Operator.Array
import Mathlib.Algebra.BigOperators.Group.List.Basic
import Mathlib.Data.List.Perm.Basic
import Mathlib.Data.List.Nodup
import Mathlib.Data.List.Sort

/-!
# Model of `DenseOperator.ptrace` (matrix.py:874-959)

`reshape` and `transpose` of arrays with any number of axes are modelled on the row major buffer: a flat
position is turned into a multi-index (`unravel`), the axes are permuted and the multi-index is turned
back into a flat position (`ravel`).
-/

namespace Verif.Operator
open Verif

/-- Row major flat position of a multi-index. -/
def ravel : List Nat → List Nat → Nat
  | _ :: ds, i :: is => i * ds.prod + ravel ds is
  | _, _ => 0

/-- Multi-index of a row major flat position. -/
def unravel : List Nat → Nat → List Nat
  | [], _ => []
  | _ :: ds, p => p / ds.prod :: unravel ds (p % ds.prod)

/-- A numpy array with any number of axes. -/
structure NdArr (K : Type) where
  shape : List Nat
  buf : List K

variable {K : Type}

/-- `a.reshape(shape)`: `ValueError` if the number of elements differs. -/
def NdArr.reshape (a : NdArr K) (shape : List Nat) : Except PyErr (NdArr K) :=
  if a.buf.length = shape.prod then .ok ⟨shape, a.buf⟩ else .error .valueError

/-- `a.transpose(axes)`: axis `k` of the result is axis `axes[k]` of `a`; `ValueError` unless `axes` lists
every axis once. -/
def NdArr.transpose [Zero K] (a : NdArr K) (axes : List Nat) : Except PyErr (NdArr K) :=
  if axes.Perm (List.range a.shape.length) then
    let shape := axes.map fun k => a.shape.getD k 0
    .ok ⟨shape, (List.range shape.prod).map fun p =>
      a.buf.getD (ravel a.shape ((List.range a.shape.length).map fun k =>
        (unravel shape p).getD (axes.idxOf k) 0)) 0⟩
  else .error .valueError

/-- `np.trace(a)` for an array with four axes `[n, n, b, b]`: `pmat[j,k] = sum_i a[i,i,j,k]`. -/
def trace4 [AddCommMonoid K] (n b : Nat) (buf : List K) : Arr K :=
  Arr.ofFn b b fun j k => ∑ i ∈ Finset.range n, buf.getD (((i * n + i) * b + j) * b + k) 0

/-- `remove = list(np.sort(remove))`, matrix.py:925. -/
def sortedRemove (remove : List Nat) : List Nat := remove.mergeSort (· ≤ ·)

/-- `keep = list(set(np.arange(n_dim)) - set(remove))`, matrix.py:927.  `order` is the iteration order of
the Python set: CPython iterates sets of small integers in ascending order if there are at most eight
subsystems, and the theorems state what they assume of it. -/
def keepOf (order : List Nat → List Nat) (n : Nat) (remove : List Nat) : List Nat :=
  order ((List.range n).filter fun k => !(sortedRemove remove).contains k)

/-- The reshape / transpose / reshape / trace chain, matrix.py:929-950, once the removed and the kept
subsystems are known.  `np.prod([])` is the float `1.0`, which `reshape` refuses with `TypeError`. -/
def traceOut [Semiring K] (mat : Arr K) (dims remove keep : List Nat) : Except PyErr (Arr K) := do
  let n := dims.length
  let dimsRm := remove.map fun k => dims.getD k 0
  let dimsKeep := keep.map fun k => dims.getD k 0
  let nd ← (⟨[mat.rows, mat.cols], mat.buf⟩ : NdArr K).reshape (dims ++ dims)
  let nd ← nd.transpose (remove ++ remove.map (n + ·) ++ keep ++ keep.map (n + ·))
  if dimsRm = [] ∨ dimsKeep = [] then .error .typeError
  else
    let nd ← nd.reshape [dimsRm.prod, dimsRm.prod, dimsKeep.prod, dimsKeep.prod]
    pure (trace4 dimsRm.prod dimsKeep.prod nd.buf)

/-- `ptrace` with `do_copy=True`, matrix.py:916-954 (with `do_copy=False` the same array replaces the
data).  Negative subsystem indices are not modelled. -/
def ptrace [Semiring K] [Star K] (order : List Nat → List Nat) (a : Arr K) (dims remove : List Nat) :
    Except PyErr (Arr K) := do
  let mat ← if a.cols = 1 then a.matmul a.dag else pure a
  if mat.rows ≠ dims.prod then .error .assertionError
  else if (sortedRemove remove).any (fun k => decide (dims.length ≤ k)) then .error .indexError
  else traceOut mat dims (sortedRemove remove) (keepOf order dims.length remove)

end Verif.Operator
