import Mathlib.LinearAlgebra.Matrix.Kronecker
import Verif.Solver.MonteCarlo

/-!
# The Lindblad solver (solver_algorithms.py:1572-2105)

Super operators are indexed by pairs: `np.kron` of two `d × d` matrices has entry `(i d + k, j d + l)` where Mathlib's
Kronecker product has entry `((i, k), (j, l))`.  Dissipation that raises or depends on functions given by the user is
modelled by functions; exceptions raised by these functions are not.
-/

namespace Verif.Solver
open Verif Verif.Operator Matrix
open scoped Kronecker

section
variable {n m : Type} [Fintype n] [DecidableEq n]

/-- Super operators. -/
abbrev Sup (n : Type) := Matrix (n × n) (n × n) ℂ

/-- `a.conj(do_copy=True)`, matrix.py:827-835. -/
def conjM (A : Matrix n n ℂ) : Matrix n n ℂ := A.map (starRingEnd ℂ)

/-- `convert_unitary_to_super_operator`, matrix.py:1314-1349: `U* ⊗ U`. -/
def unitarySup (U : Matrix n n ℂ) : Sup n := conjM U ⊗ₖ U

/-- The super operator of one Lindblad operator, solver_algorithms.py:1897-1904: `L* ⊗ L`, then in place minus
`0.5 I ⊗ L† L`, then minus `0.5 (Lᵀ L*) ⊗ I`. -/
noncomputable def dissOf (L : Matrix n n ℂ) : Sup n :=
  conjM L ⊗ₖ L - (1 / 2 : ℂ) • ((1 : Matrix n n ℂ) ⊗ₖ (Lᴴ * L)) - (1 / 2 : ℂ) • ((Lᵀ * conjM L) ⊗ₖ (1 : Matrix n n ℂ))

/-- The constructor arguments describing the dissipation, solver_algorithms.py:1811-1836. -/
structure Diss (n : Type) where
  /-- `initial_diss_super_op` -/
  initial : Option (List (Sup n))
  /-- `lindblad_operators` -/
  lindblad : Option (List (Matrix n n ℂ))
  /-- `prefactor_function(u, x)`, one row of factors per time step -/
  prefactor : Option (Pulse → Pulse → List (List ℝ))
  /-- `prefactor_derivative_function(u, x)`, shape (time, control, Lindblad operator) -/
  prefactorDeriv : Option (Pulse → Pulse → List (List (List ℝ)))
  /-- `super_operator_function(u, x)` -/
  supOp : Option (Pulse → Pulse → List (Sup n))
  /-- `super_operator_derivative_function(u, x)` -/
  supOpDeriv : Option (Pulse → Pulse → List (List (Sup n)))

/-- The time constant super operators, solver_algorithms.py:1886-1904: `None[0]` raises TypeError later, an empty list
of Lindblad operators IndexError. -/
noncomputable def constDiss (d : Diss n) : Except PyErr (List (Sup n)) :=
  match d.lindblad with
  | some [] => .error .indexError
  | some Ls => .ok (Ls.map dissOf)
  | none => match d.initial with
    | none => .error .typeError
    | some s => .ok s

/-- `const[0] * f[0]`, then `+= sup_op * factor` for the rest; solver_algorithms.py:1912-1918.  An empty list raises
IndexError, `zip` stops at the shorter list. -/
noncomputable def weighted (s : List (Sup n)) (f : List ℝ) : Except PyErr (Sup n) :=
  match s, f with
  | S :: s, a :: f => .ok ((List.zipWith (fun (S : Sup n) (a : ℝ) => (a : ℂ) • S) s f).foldl (· + ·) ((a : ℂ) • S))
  | _, _ => .error .indexError

/-- Evaluate a list of computations in order. -/
def allOk {α : Type} : List (Except PyErr α) → Except PyErr (List α)
  | [] => .ok []
  | x :: l => do let a ← x; let r ← allOk l; pure (a :: r)

/-- `_calc_diss_sup_op`, solver_algorithms.py:1875-1929.  The second component is the list `initial_diss_super_op` of
the caller afterwards: without a prefactor function the first operator of the list is the accumulator of `+=`
(lines 1920-1922); with Lindblad operators the accumulator is an operator created by the solver. -/
noncomputable def calcDiss (d : Diss n) (times : List ℝ) (u x : Pulse) :
    Except PyErr (List (Sup n)) × Option (List (Sup n)) :=
  match d.supOp with
  | some f => (.ok (f u x), d.initial)
  | none =>
    match constDiss d with
    | .error e => (.error e, d.initial)
    | .ok s =>
      match d.prefactor with
      | some f => (allOk ((f u x).map (weighted s)), d.initial)
      | none =>
        match s with
        | [] => (.error .indexError, d.initial)
        | S :: rest =>
          let total := rest.foldl (· + ·) S
          (.ok (List.replicate times.length total),
            match d.lindblad, d.initial with
            | none, some (_ :: r) => some (total :: r)
            | _, i => i)

/-- One entry of the generator, solver_algorithms.py:2096-2102: `I ⊗ G`, `+= G* ⊗ I`, `+= D`. -/
def supGen (G : Matrix n n ℂ) (D : Sup n) : Sup n :=
  (1 : Matrix n n ℂ) ⊗ₖ G + conjM G ⊗ₖ (1 : Matrix n n ℂ) + D

/-- `_compute_dyn_gen`, solver_algorithms.py:2062-2105, once the dissipation has been computed: `_dyn_gen[0]` raises
IndexError for an empty drift, the lengths are asserted to agree. -/
def lindGens (drift ctrl : List (Matrix n n ℂ)) (u : Pulse) (diss : List (Sup n)) : Except PyErr (List (Sup n)) :=
  let g := schroedGens drift ctrl u
  if g = [] then .error .indexError
  else if g.length ≠ diss.length then .error .assertionError
  else .ok (List.zipWith supGen g diss)

/-- `_calc_diss_sup_op_deriv`, solver_algorithms.py:1931-2012. -/
noncomputable def calcDissDeriv (d : Diss n) (u x : Pulse) : Except PyErr (Option (List (List (Sup n)))) :=
  match d.supOpDeriv with
  | some f => .ok (some (f u x))
  | none => match d.prefactorDeriv with
    | none => .ok none
    | some f => do
      let s ← constDiss d
      let r ← allOk ((f u x).map fun row => allOk (row.map (weighted s)))
      pure (some r)

/-- The coherent part of a direction, solver_algorithms.py:2029-2035: `(-i I) ⊗ H`, `-= Hᵀ ⊗ (-i I)`. -/
def ctrlSup (H : Matrix n n ℂ) : Sup n :=
  ((-Complex.I) • (1 : Matrix n n ℂ)) ⊗ₖ H - Hᵀ ⊗ₖ ((-Complex.I) • (1 : Matrix n n ℂ))

/-- `_compute_derivative_directions`, solver_algorithms.py:2014-2052.  `h_ctrl[0]` raises IndexError without controls. -/
noncomputable def lindDirs (ctrl : List (Matrix n n ℂ)) (d : Diss n) (times : List ℝ) (u x : Pulse) :
    Except PyErr (List (List (Sup n))) :=
  if ctrl.length = 0 then .error .indexError
  else do
    let dd ← calcDissDeriv d u x
    match dd with
    | none => pure (List.replicate times.length (ctrl.map ctrlSup))
    | some l => pure (l.map fun row => List.zipWith (fun D C => D + C) row (ctrl.map ctrlSup))

/-- Constructor arguments of the Lindblad solver besides the dissipation. -/
structure LPar (n : Type) where
  L : Lapack (n × n)
  method : Method
  skew : Bool
  init : Sup n
  drift : List (Matrix n n ℂ)
  ctrl : List (Matrix n n ℂ)
  diss : Diss n

/-- The generators of the Lindblad solver for transferred times, control amplitudes and transferred parameters. -/
noncomputable def LPar.gens (p : LPar n) (times : List ℝ) (u x : Pulse) : Except PyErr (List (Sup n)) := do
  let d ← (calcDiss p.diss times u x).1
  lindGens p.drift p.ctrl u d

/-- The loops of the parent class as used by `traceRun` need only these fields. -/
noncomputable def LPar.base (p : LPar n) (dirs : List (List (Sup n))) : Cfg (n × n) (n × n) :=
  { L := p.L, method := p.method, skew := p.skew, calcDeriv := false, approx := .none, init := p.init,
    nCtrl := p.ctrl.length, gens := fun _ => [], dirs := fun _ _ => dirs, tf := fun _ y => .ok y, xTimes := id,
    amp := fun _ => .error .valueError }

/-- The propagators (without derivatives), solver_algorithms.py:915-953 with the generators of the Lindblad solver. -/
noncomputable def LPar.props (p : LPar n) (times : List ℝ) (u x : Pulse) : Except PyErr (List (Option (Sup n))) := do
  let g ← p.gens times u x
  let r ← traceRun (p.base []) false times u g
  pure r.1

/-- The forward propagators. -/
noncomputable def LPar.fwd (p : LPar n) (times : List ℝ) (u x : Pulse) : Except PyErr (List (Sup n)) := do
  let ps ← p.props times u x
  traceFwd (p.base []) ps

end
end Verif.Solver
