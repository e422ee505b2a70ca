/-!
# Python runtime fragments shared by all models

Exceptions are values.  Only the exception classes that occur in the modelled code are listed.
-/

namespace Verif

/-- The exception classes raised by the modelled code (the message is dropped). -/
inductive PyErr where
  | valueError
  | indexError
  | typeError
  | runtimeError
  | runtimeWarning
  | assertionError
  | attributeError
  | notImplementedError
  | exception
  | zeroDivisionError
  | overflowError
  deriving DecidableEq, Repr

/-- `np.repeat(a, n, axis=0)`: every row is repeated `n` times in place. -/
def npRepeat {α : Type _} (n : Nat) (l : List α) : List α :=
  l.flatMap (List.replicate n)

/-- Python slice `a[start:-stop]` for `stop > 0` (drops `stop` rows at the end, `start` rows at the
beginning). -/
def sliceNeg {α : Type _} (start stop : Nat) (l : List α) : List α :=
  (l.take (l.length - stop)).drop start

/-- `np.diff`. -/
def npDiff {α : Type _} [Sub α] : List α → List α
  | a :: b :: l => (b - a) :: npDiff (b :: l)
  | _ => []

end Verif
