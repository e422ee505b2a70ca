import Mathlib.Algebra.Field.Basic
import Verif.Operator.Ptrace
import Verif.Operator.Truncate

/-!
# Memory model of `DenseOperator` objects (matrix.py:698-970, 1276-1307)

Memory is a list of buffers.  A numpy array is a *view*: the location of a buffer and a flag telling that
it is read transposed (numpy's `.T` shares memory).  An object is a numpy array or a `DenseOperator`, whose
only relevant attribute `data` is a view; a program variable refers to an object, and two variables may
refer to the same one.  All arrays have the data type complex128 (other types are copied by the
constructor, which is not modelled), and numpy resolves overlapping operands of in-place operations by
temporary copies, so that an in-place operation first computes its result and then stores it.  Operands of
types other than operators, arrays and the scalars of `VALID_SCALARS` (they raise NotImplementedError, the
copy made before is dropped) and division by zero (inf or nan) are not modelled.
-/

namespace Verif.Operator
open Verif

/-- A numpy array object: buffer location and orientation. -/
structure View where
  loc : Nat
  tr : Bool
  deriving DecidableEq, Repr

/-- Memory, objects and variables of a program. -/
structure Heap (K : Type) where
  mem : List (Arr K)
  objs : List View
  vars : List Nat

/-- Operations with a scalar on every element: `+= z`, `-= z`, `/= z`. -/
inductive SOp where
  | add | sub | div
  deriving DecidableEq, Repr

/-- The element after the operation, matrix.py:773-774, 786-787, 793-800. -/
def SOp.eval {K : Type} [Field K] : SOp → K → K → K
  | .add, z, x => x + z
  | .sub, z, x => x - z
  | .div, z, x => x / z

/-- The array after the operation. -/
def Arr.scal {K : Type} [Field K] (op : SOp) (z : K) (a : Arr K) : Arr K := ⟨a.rows, a.cols, a.buf.map (op.eval z)⟩

/-- `a[r, c] = z`, matrix.py:806-808; negative indices count from the end. -/
def Arr.setEntry {K : Type} (a : Arr K) (r c : Int) (z : K) : Except PyErr (Arr K) := do
  let i ← normIdx a.rows r
  let j ← normIdx a.cols c
  pure ⟨a.rows, a.cols, a.buf.set (i * a.cols + j) z⟩

/-- `identity_like`, matrix.py:1276-1279. -/
def Arr.identityLike {K : Type} [Zero K] [One K] (a : Arr K) : Except PyErr (Arr K) :=
  if a.rows = a.cols then .ok (Arr.eye K a.rows) else .error .assertionError

/-- The operations of a program; arguments are variable numbers.  Operations without the suffix `In` bind
their result to a new variable. -/
inductive Cmd (K : Type) where
  /-- a new numpy array -/
  | array (a : Arr K)
  /-- `DenseOperator(x)` for a numpy array or an operator `x`, matrix.py:698-715 -/
  | wrap (i : Nat)
  | copy (i : Nat)
  | add (i j : Nat)
  | sub (i j : Nat)
  | mul (i j : Nat)
  | smul (z : K) (i : Nat)
  | dag (i : Nat)
  | conj (i : Nat)
  | transpose (i : Nat)
  | kron (i j : Nat)
  /-- `a + z`, `a - z`, `a / z` -/
  | scal (op : SOp) (z : K) (i : Nat)
  | identityLike (i : Nat)
  | ptrace (order : List Nat → List Nat) (dims remove : List Nat) (i : Nat)
  /-- `a.truncate_to_subspace(l)` for a list `l` (without mapping to the closest unitary) -/
  | truncate (l : List Int) (i : Nat)
  /-- `b = a`, and `b = a.truncate_to_subspace(None)` -/
  | rename (i : Nat)
  | addIn (i j : Nat)
  | subIn (i j : Nat)
  | mulIn (i j : Nat)
  | smulIn (z : K) (i : Nat)
  | dagIn (i : Nat)
  | conjIn (i : Nat)
  | transposeIn (i : Nat)
  | scalIn (op : SOp) (z : K) (i : Nat)
  | setItem (r c : Int) (z : K) (i : Nat)
  | ptraceIn (order : List Nat → List Nat) (dims remove : List Nat) (i : Nat)

namespace Heap
variable {K : Type} [Field K] [StarRing K]

/-- The array a view shows. -/
def value (h : Heap K) (v : View) : Arr K :=
  let a := h.mem.getD v.loc ⟨0, 0, []⟩
  if v.tr then a.transpose else a

/-- A freshly allocated array. -/
def alloc (h : Heap K) (a : Arr K) : Heap K × View := (⟨h.mem ++ [a], h.objs, h.vars⟩, ⟨h.mem.length, false⟩)

/-- Stores `a` into the memory shown by a view. -/
def write (h : Heap K) (v : View) (a : Arr K) : Heap K :=
  ⟨h.mem.set v.loc (if v.tr then a.transpose else a), h.objs, h.vars⟩

/-- A new object with this view, bound to a new variable. -/
def push (p : Heap K × View) : Heap K := ⟨p.1.mem, p.1.objs ++ [p.2], p.1.vars ++ [p.1.objs.length]⟩

/-- Assigns a view to the object of variable `i` (`self.data = ...`). -/
def rebind (h : Heap K) (i : Nat) (v : View) : Heap K :=
  match h.vars[i]? with
  | some o => ⟨h.mem, h.objs.set o v, h.vars⟩
  | none => h

/-- `-a`, used by `-=`. -/
def negArr (a : Arr K) : Arr K := ⟨a.rows, a.cols, a.buf.map fun x => -x⟩

/-- `__iadd__`, matrix.py:767-777. -/
def addInto (h : Heap K) (v w : View) : Except PyErr (Heap K) := do
  let x ← (h.value v).add (h.value w)
  pure (h.write v x)

/-- `__isub__`, matrix.py:779-790. -/
def subInto (h : Heap K) (v w : View) : Except PyErr (Heap K) := do
  let x ← (h.value v).add (negArr (h.value w))
  pure (h.write v x)

/-- `__imul__` with a matrix, matrix.py:730-733: `np.matmul(..., out=self.data)` also needs a result of
the shape of `self.data`. -/
def mulInto (h : Heap K) (v w : View) : Except PyErr (Heap K) := do
  let x ← (h.value v).matmul (h.value w)
  if x.rows = (h.value v).rows ∧ x.cols = (h.value v).cols then pure (h.write v x) else .error .valueError

/-- `__imul__` with a scalar, matrix.py:734-735. -/
def smulInto (h : Heap K) (v : View) (z : K) : Heap K := h.write v ((h.value v).smul z)

/-- `np.conj(self.data, out=self.data)`, matrix.py:818, 823, 831, 834. -/
def conjInto (h : Heap K) (v : View) : Heap K := h.write v (h.value v).conj

/-- The view of a variable, if there is one. -/
def view? (h : Heap K) (i : Nat) : Option View := h.vars[i]?.bind fun o => h.objs[o]?

/-- The view of a variable. -/
def var (h : Heap K) (i : Nat) : Except PyErr View :=
  match h.view? i with
  | some v => .ok v
  | none => .error .indexError

/-- One operation of a program. -/
def step (h : Heap K) : Cmd K → Except PyErr (Heap K)
  | .array a => pure (push (h.alloc a))
  | .wrap i => do pure (push (h, ← h.var i))
  | .copy i => do pure (push (h.alloc (h.value (← h.var i))))          -- matrix.py:717-721
  | .add i j => do                                                       -- matrix.py:119-143
      let v ← h.var i
      let w ← h.var j
      let (h₁, c) := h.alloc (h.value v)
      pure (push (← h₁.addInto c w, c))
  | .sub i j => do                                                       -- matrix.py:264-289
      let v ← h.var i
      let w ← h.var j
      let (h₁, c) := h.alloc (h.value v)
      pure (push (← h₁.subInto c w, c))
  | .mul i j => do                                                       -- matrix.py:746-750
      let x ← (h.value (← h.var i)).matmul (h.value (← h.var j))
      pure (push (h.alloc x))
  | .smul z i => do                                                      -- matrix.py:743-745, 761-763
      let (h₁, c) := h.alloc (h.value (← h.var i))
      pure (push (h₁.smulInto c z, c))
  | .dag i => do                                                         -- matrix.py:817-821
      let (h₁, c) := h.alloc (h.value (← h.var i))
      let h₂ := h₁.conjInto c
      pure (push (h₂.alloc (h₂.value c).transpose))
  | .conj i => do                                                        -- matrix.py:829-832
      let (h₁, c) := h.alloc (h.value (← h.var i))
      pure (push (h₁.conjInto c, c))
  | .transpose i => do                                                   -- matrix.py:839-844
      let (h₁, c) := h.alloc (h.value (← h.var i))
      pure (push (h₁, ⟨c.loc, !c.tr⟩))
  | .kron i j => do pure (push (h.alloc ((h.value (← h.var i)).kron (h.value (← h.var j)))))
  | .scal op z i => do
      let v ← h.var i
      match op with
      | .div => pure (push (h.alloc ((h.value v).scal .div z)))         -- matrix.py:792-795
      | op =>                                                            -- matrix.py:119-143, 264-289
        let (h₁, c) := h.alloc (h.value v)
        pure (push (h₁.write c ((h₁.value c).scal op z), c))
  | .identityLike i => do pure (push (h.alloc (← (h.value (← h.var i)).identityLike)))
  | .ptrace order dims remove i => do pure (push (h.alloc (← Operator.ptrace order (h.value (← h.var i)) dims remove)))
  | .truncate l i => do pure (push (h.alloc (← Operator.truncate id (h.value (← h.var i)) (some l))))
  | .rename i => match h.vars[i]? with
      | some o => pure ⟨h.mem, h.objs, h.vars ++ [o]⟩
      | none => .error .indexError
  | .addIn i j => do h.addInto (← h.var i) (← h.var j)
  | .subIn i j => do h.subInto (← h.var i) (← h.var j)
  | .mulIn i j => do h.mulInto (← h.var i) (← h.var j)
  | .smulIn z i => do pure (h.smulInto (← h.var i) z)
  | .dagIn i => do                                                       -- matrix.py:822-825
      let v ← h.var i
      let h₁ := h.conjInto v
      pure (h₁.rebind i ⟨v.loc, !v.tr⟩)
  | .conjIn i => do pure (h.conjInto (← h.var i))
  | .transposeIn i => do                                                 -- matrix.py:841-844
      let v ← h.var i
      pure (h.rebind i ⟨v.loc, !v.tr⟩)
  | .scalIn op z i => do                                                 -- matrix.py:773-774, 786-787, 797-801
      let v ← h.var i
      pure (h.write v ((h.value v).scal op z))
  | .setItem r c z i => do
      let v ← h.var i
      pure (h.write v (← (h.value v).setEntry r c z))
  | .ptraceIn order dims remove i => do                                  -- matrix.py:955-957
      let (h₁, c) := h.alloc (← Operator.ptrace order (h.value (← h.var i)) dims remove)
      pure (h₁.rebind i c)

/-- A program; an operation that raises leaves everything as it was. -/
def run (h : Heap K) : List (Cmd K) → Heap K
  | [] => h
  | c :: cs =>
    match h.step c with
    | .ok h' => run h' cs
    | .error _ => run h cs

end Heap

/-- The operand an in-place operation modifies. -/
def Cmd.target {K : Type} : Cmd K → Option Nat
  | .addIn i _ | .subIn i _ | .mulIn i _ | .smulIn _ i | .dagIn i | .conjIn i | .transposeIn i => some i
  | .scalIn _ _ i | .setItem _ _ _ i => some i
  | _ => none

/-- The operand that gets new memory. -/
def Cmd.rebinds {K : Type} : Cmd K → Option Nat
  | .ptraceIn _ _ _ i => some i
  | _ => none

end Verif.Operator
