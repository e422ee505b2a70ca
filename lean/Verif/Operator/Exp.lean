import Mathlib.Analysis.Normed.Algebra.MatrixExponential
import Mathlib.Analysis.Complex.Exponential
import Mathlib.Analysis.SpecialFunctions.Exponential
import Mathlib.LinearAlgebra.UnitaryGroup
import Verif.Py
import Verif.Operator.MatDeriv

/-!
# Matrix exponential and its derivative (matrix.py:972-1274)

Square matrices are indexed by a finite type.  The LAPACK/scipy routines are parameters, collected in
`Lapack`; theorems state what they assume about them (`EighOk`, `EigOk`, `ExpmOk`, `FrechetOk`).
The decimal constants `0.5`, `0.3333333333333333333` and `0.16666666666666666` are read as 1/2, 1/3, 1/6.
-/

namespace Verif.Operator
open Verif Matrix
open scoped ComplexConjugate

/-- The numerical routines called by matrix.py. -/
structure Lapack (n : Type) where
  /-- `np.linalg.eigh`: eigenvalues and matrix of eigenvectors (columns) -/
  eigh : Matrix n n ℂ → (n → ℝ) × Matrix n n ℂ
  /-- `np.linalg.eig` -/
  eig : Matrix n n ℂ → (n → ℂ) × Matrix n n ℂ
  /-- `scipy.linalg.expm` -/
  expm : Matrix n n ℂ → Matrix n n ℂ
  /-- `scipy.linalg.expm_frechet(a, e)`: derivative of the exponential at `a` in direction `e` -/
  frechet : Matrix n n ℂ → Matrix n n ℂ → Matrix n n ℂ

/-- The `method` argument of `exp` and `dexp`; `other` is any unknown string. -/
inductive Method where
  | spectral | approx | frechet | first | second | third | other
  deriving DecidableEq, Repr

section Model
variable {n : Type} [Fintype n] [DecidableEq n]

/-- Eigenvalues and eigenvectors as computed in matrix.py:990-994 and 1035-1039: in the skew Hermitian case
`eigh` is applied to `-1j * A` and the eigenvalues are multiplied by `1j`. -/
noncomputable def decomp (L : Lapack n) (A : Matrix n n ℂ) (skew : Bool) : (n → ℂ) × Matrix n n ℂ :=
  if skew then
    let p := L.eigh ((-Complex.I) • A)
    (fun j => Complex.I * (p.1 j : ℂ), p.2)
  else L.eig A

/-- `np.einsum('ij,j,kj->ik', V, np.exp(tau * lam), V.conj())`, matrix.py:998-999. -/
noncomputable def expEinsum (lam : n → ℂ) (V : Matrix n n ℂ) (τ : ℂ) : Matrix n n ℂ :=
  Matrix.of fun i k => ∑ j, V i j * Complex.exp (τ * lam j) * conj (V k j)

/-- `_exp_diagonalize`, matrix.py:972-1001. -/
noncomputable def expDiagonalize (L : Lapack n) (A : Matrix n n ℂ) (τ : ℂ) (skew : Bool) : Matrix n n ℂ :=
  let d := decomp L A skew
  expEinsum d.1 d.2 τ

/-- `exp`, matrix.py:1080-1142. -/
noncomputable def exp (L : Lapack n) (A : Matrix n n ℂ) (τ : ℂ) (method : Method := .spectral)
    (skew : Bool := false) : Except PyErr (Matrix n n ℂ) :=
  match method with
  | .spectral => .ok (expDiagonalize L A τ skew)
  | .approx | .frechet => .ok (L.expm (τ • A))
  | .first => .ok (1 + τ • A)
  | .second => .ok (1 + τ • A + (τ * τ * (1 / 2)) • (A * A))
  | .third =>
    let b := τ • A
    let bb := (1 / 2 : ℂ) • (b * b)
    .ok (1 + b + bb + (1 / 3 : ℂ) • (bb * b))
  | .other => .error .valueError

/-- The factors `omega`, matrix.py:1043-1052: entry `(i,j)` is `(exp((λ_j-λ_i)τ)-1)/(λ_j-λ_i)`, the diagonal
is overwritten by `τ`. -/
noncomputable def omega (lam : n → ℂ) (τ : ℂ) : Matrix n n ℂ :=
  Matrix.of fun i j => if i = j then τ else (Complex.exp ((lam j - lam i) * τ) - 1) / (lam j - lam i)

/-- `du_dalpha`, matrix.py:1054-1062. -/
noncomputable def dexpFormula (lam : n → ℂ) (V : Matrix n n ℂ) (τ : ℂ) (D : Matrix n n ℂ) : Matrix n n ℂ :=
  let transformed := V * D * Vᴴ
  let dk := Matrix.of fun i j => transformed i j * omega lam τ i j
  let e := V * Matrix.diagonal (fun j => Complex.exp (τ * lam j)) * Vᴴ
  let dv := Vᴴ * dk * V
  e * dv

/-- `_dexp_diagonalization`, matrix.py:1005-1069: the exponential and its derivative.  If two eigenvalues
coincide exactly, numpy divides 0 by 0 and every entry of the derivative is NaN (`none`), because NaN times
anything is NaN in the matrix products. -/
noncomputable def dexpDiagonalization (L : Lapack n) (A D : Matrix n n ℂ) (τ : ℂ) (skew : Bool) :
    Matrix n n ℂ × Option (Matrix n n ℂ) :=
  open scoped Classical in
  let d := decomp L A skew
  (d.2 * Matrix.diagonal (fun j => Complex.exp (τ * d.1 j)) * d.2ᴴ,
    if Function.Injective d.1 then some (dexpFormula d.1 d.2 τ D) else none)

/-- What `dexp` returns: the exponential if asked for, and the derivative (`none` = NaN). -/
structure DexpResult (n : Type) where
  prop : Option (Matrix n n ℂ)
  grad : Option (Matrix n n ℂ)

/-- `dexp`, matrix.py:1148-1274.  Note that the Taylor methods and `approx` obtain the exponential from
`self.exp(tau)`, that is with the default arguments. -/
noncomputable def dexp (L : Lapack n) (A D : Matrix n n ℂ) (τ : ℂ) (computeExpm : Bool) (method : Method)
    (skew : Bool) (ε : ℝ) : Except PyErr (DexpResult n) :=
  match method with
  | .frechet =>
    .ok ⟨if computeExpm then some (L.expm (τ • A)) else none, some (L.frechet (τ • A) (τ • D))⟩
  | .spectral =>
    let r := dexpDiagonalization L A D τ skew
    .ok ⟨if computeExpm then some r.1 else none, r.2⟩
  | .approx => do
    let dprop := L.expm (τ • (A + (ε : ℂ) • D))
    let prop ← exp L A τ
    pure ⟨if computeExpm then some prop else none, some ((1 / (ε : ℂ)) • (dprop - prop))⟩
  | .first => do
    let prop ← exp L A τ
    pure ⟨if computeExpm then some prop else none, some (τ • D)⟩
  | .second => do
    let prop ← exp L A τ
    pure ⟨if computeExpm then some prop else none, some (τ • D + (τ * τ * (1 / 2)) • (A * D + D * A))⟩
  | .third => do
    let prop ← exp L A τ
    pure ⟨if computeExpm then some prop else none,
      some (τ • D + (τ * τ * (1 / 2)) • (A * D + D * A) +
        (τ * τ * τ * (1 / 6)) • (A * A * D + D * A * A + A * D * A))⟩
  | .other => .error .notImplementedError

end Model

section Contracts
variable {n : Type} [Fintype n] [DecidableEq n]

/-- `(lam, V)` is a unitary diagonalisation of `H`. -/
def UnitaryDecomp (H : Matrix n n ℂ) (lam : n → ℂ) (V : Matrix n n ℂ) : Prop :=
  V ∈ Matrix.unitaryGroup n ℂ ∧ H * V = V * Matrix.diagonal lam

/-- What `np.linalg.eigh` promises. -/
def Lapack.EighOk (L : Lapack n) : Prop :=
  ∀ H : Matrix n n ℂ, H.IsHermitian → UnitaryDecomp H (fun j => ((L.eigh H).1 j : ℂ)) (L.eigh H).2

/-- What `np.linalg.eig` promises for a diagonalisable matrix: independent eigenvectors of length one. -/
def Lapack.EigOk (L : Lapack n) : Prop :=
  ∀ A : Matrix n n ℂ, (∃ lam V, IsUnit V ∧ A * V = V * Matrix.diagonal lam) →
    IsUnit (L.eig A).2 ∧ A * (L.eig A).2 = (L.eig A).2 * Matrix.diagonal (L.eig A).1 ∧
    ∀ j, ∑ i, conj ((L.eig A).2 i j) * (L.eig A).2 i j = 1

/-- What `scipy.linalg.expm` promises. -/
def Lapack.ExpmOk (L : Lapack n) : Prop := ∀ A, L.expm A = NormedSpace.exp A

/-- What `scipy.linalg.expm_frechet` promises. -/
def Lapack.FrechetOk (L : Lapack n) : Prop :=
  ∀ A D : Matrix n n ℂ, MatDeriv (fun x : ℝ => NormedSpace.exp (A + (x : ℂ) • D)) (L.frechet A D) 0

end Contracts
end Verif.Operator
