import Mathlib.LinearAlgebra.Matrix.Vec
import Verif.Solver.Lindblad

/-!
# The cost functions (cost_functions.py)

The propagators are matrices over a finite index type `n`; a list of computational states is a list of indices of `n`
(negative and out of range indices are the subject of C26).  The shape of the target is fixed by its type: a target of
another shape raises in numpy.  The functions receive what the solver returned (forward propagators, reversed
propagators, derivatives `[control][time]`) as lists.
-/

namespace Verif.Cost
open Verif Verif.Operator Verif.Solver Matrix
open scoped Kronecker

section
variable {n m : Type} [Fintype n] [DecidableEq n]

/-- `l[i]`. -/
def idx {α : Type} (l : List α) (i : Nat) : Except PyErr α :=
  match l[i]? with
  | some a => .ok a
  | none => .error .indexError

/-- `l[-1]`. -/
def last {α : Type} (l : List α) : Except PyErr α :=
  match l.getLast? with
  | some a => .ok a
  | none => .error .indexError

/-- Index type of operators restricted to the computational states. -/
def CompIdx (cs : Option (List n)) : Type :=
  match cs with
  | none => n
  | some l => Fin l.length

instance (cs : Option (List n)) : Fintype (CompIdx cs) :=
  match cs with
  | none => inferInstanceAs (Fintype n)
  | some l => inferInstanceAs (Fintype (Fin l.length))

instance (cs : Option (List n)) : DecidableEq (CompIdx cs) :=
  match cs with
  | none => inferInstanceAs (DecidableEq n)
  | some l => inferInstanceAs (DecidableEq (Fin l.length))

/-- The state an index stands for. -/
def sel : (cs : Option (List n)) → CompIdx cs → n
  | none => id
  | some l => l.get

/-- `closest_unitary`, matrix.py:1435-1453, for matrices of every size. -/
abbrev Closest := ∀ k : Nat, Matrix (Fin k) (Fin k) ℂ → Matrix (Fin k) (Fin k) ℂ

/-- `truncate_to_subspace` of square matrices, matrix.py:1286-1293. -/
def truncTo (cl : Closest) : (cs : Option (List n)) → Bool → Matrix n n ℂ → Matrix (CompIdx cs) (CompIdx cs) ℂ
  | none, _, U => U
  | some l, b, U => if b then cl l.length (U.submatrix l.get l.get) else U.submatrix l.get l.get

/-- `target.shape[0]`. -/
noncomputable def dim (cs : Option (List n)) : ℝ := Fintype.card (CompIdx cs)

/-- `entanglement_fidelity`, cost_functions.py:703-746. -/
noncomputable def entFid (cl : Closest) (cs : Option (List n)) (T : Matrix (CompIdx cs) (CompIdx cs) ℂ)
    (P : Matrix n n ℂ) (mcu : Bool) : ℝ :=
  ‖(Tᴴ * truncTo cl cs mcu P).trace‖ ^ 2 / dim cs / dim cs

/-- A table of numbers computed entry by entry. -/
def table (nt nc : Nat) (f : Nat → Nat → Except PyErr ℝ) : Except PyErr (List (List ℝ)) :=
  allOk ((List.range nt).map fun t => allOk ((List.range nc).map fun c => f t c))

/-- The loops shared by all gradients, e.g. cost_functions.py:808-828: entry `[t][c]` is `f` of
`reversed[::-1][t + 1] * derivatives[c][t] * forward[t]`. -/
def gradTable (fwd : List (Matrix n m ℂ)) (dP : List (List (Matrix n n ℂ))) (rev : List (Matrix n n ℂ))
    (f : Matrix n m ℂ → ℝ) : Except PyErr (List (List ℝ)) := do
  let row0 ← idx dP 0
  table row0.length dP.length fun t c => do
    let R ← idx rev.reverse (t + 1)
    let row ← idx dP c
    let D ← idx row t
    let F ← idx fwd t
    pure (f (R * D * F))

/-- `derivative_entanglement_fidelity_with_du`, cost_functions.py:749-830.  For an empty list of computational states
(false in Python) the full propagator is multiplied with a target without rows. -/
noncomputable def derivEntFid (cl : Closest) (cs : Option (List n)) (T : Matrix (CompIdx cs) (CompIdx cs) ℂ)
    (fwd : List (Matrix n n ℂ)) (dP : List (List (Matrix n n ℂ))) (rev : List (Matrix n n ℂ)) (mcu : Bool) :
    Except PyErr (List (List ℝ)) :=
  if cs = some [] then .error .valueError
  else do
    let final ← last fwd
    let tr := star (truncTo cl cs mcu final * Tᴴ).trace
    gradTable fwd dP rev fun X => 2 / dim cs / dim cs * (tr * (truncTo cl cs mcu X * Tᴴ).trace).re

/-- `M[i, j] = z`. -/
def setEntry (M : Matrix n n ℂ) (i j : n) (z : ℂ) : Matrix n n ℂ :=
  Matrix.of fun i' j' => if i' = i ∧ j' = j then z else M i' j'

/-- `target_inv_full_space`, cost_functions.py:885-891. -/
def fillTarget (l : List n) (A : Matrix (Fin l.length) (Fin l.length) ℂ) : Matrix n n ℂ :=
  (List.finRange l.length).foldl (fun M i => (List.finRange l.length).foldl
    (fun M k => setEntry M (l.get i) (l.get k) (A i k)) M) 0

/-- `projector_comp_state`, cost_functions.py:905-907. -/
def projComp (l : List n) : Matrix n n ℂ := l.foldl (fun M s => setEntry M s s 1) 0

/-- `entanglement_fidelity_super_operator`, cost_functions.py:833-923. -/
noncomputable def entFidSup : (cs : Option (List n)) → Matrix (CompIdx cs) (CompIdx cs) ℂ → Sup n → ℝ
  | none, T, P => (unitarySup (n := n) Tᴴ * P).trace.re / dim (n := n) none / dim (n := n) none
  | some l, T, P =>
    (unitarySup (projComp l) * unitarySup (fillTarget l Tᴴ) * P).trace.re / dim (some l) / dim (some l)

/-- `deriv_entanglement_fid_sup_op_with_du`, cost_functions.py:926-986. -/
noncomputable def derivEntFidSup (cs : Option (List n)) (T : Matrix (CompIdx cs) (CompIdx cs) ℂ)
    (fwd : List (Sup n)) (dP : List (List (Sup n))) (rev : List (Sup n)) : Except PyErr (List (List ℝ)) :=
  gradTable fwd dP rev fun X => entFidSup cs T X

/-- `-1 * derivative`. -/
def negTable (l : List (List ℝ)) : List (List ℝ) := l.map fun row => row.map fun x => -x

/-- `OperationInfidelity.costs` without super operators, cost_functions.py:1271-1291. -/
noncomputable def opCosts (cl : Closest) (cs : Option (List n)) (T : Matrix (CompIdx cs) (CompIdx cs) ℂ) (mcu : Bool)
    (fwd : List (Matrix n n ℂ)) : Except PyErr ℝ := do
  let final ← last fwd
  pure (1 - entFid cl cs T final mcu)

/-- `OperationInfidelity.grad` without super operators, cost_functions.py:1293-1316: `map_to_closest_unitary` is not
passed on. -/
noncomputable def opGrad (cl : Closest) (cs : Option (List n)) (T : Matrix (CompIdx cs) (CompIdx cs) ℂ) (_mcu : Bool)
    (fwd : List (Matrix n n ℂ)) (dP : List (List (Matrix n n ℂ))) (rev : List (Matrix n n ℂ)) :
    Except PyErr (List (List ℝ)) := do
  let d ← derivEntFid cl cs T fwd dP rev false
  pure (negTable d)

/-- `OperationInfidelity.costs` with super operators. -/
noncomputable def opCostsSup (cs : Option (List n)) (T : Matrix (CompIdx cs) (CompIdx cs) ℂ)
    (fwd : List (Sup n)) : Except PyErr ℝ := do
  let final ← last fwd
  pure (1 - entFidSup cs T final)

/-- `OperationInfidelity.grad` with super operators. -/
noncomputable def opGradSup (cs : Option (List n)) (T : Matrix (CompIdx cs) (CompIdx cs) ℂ)
    (fwd : List (Sup n)) (dP : List (List (Sup n))) (rev : List (Sup n)) : Except PyErr (List (List ℝ)) := do
  let d ← derivEntFidSup cs T fwd dP rev
  pure (negTable d)

/-- `np.mean`. -/
noncomputable def mean (l : List ℝ) : ℝ := l.sum / l.length

/-- What a Monte Carlo solver offers to a cost function for one noise trace or without noise. -/
structure Trace (n m : Type) where
  fwd : List (Matrix n m ℂ)
  dP : List (List (Matrix n n ℂ))
  rev : List (Matrix n n ℂ)

/-- `OperationNoiseInfidelity._effective_target`, cost_functions.py:1396-1400. -/
noncomputable def effTarget (cl : Closest) (cs : Option (List n)) (T : Matrix (CompIdx cs) (CompIdx cs) ℂ) (mcu nse : Bool)
    (fwd : List (Matrix n n ℂ)) : Except PyErr (Matrix (CompIdx cs) (CompIdx cs) ℂ) :=
  if nse then do
    let final ← last fwd
    pure (truncTo cl cs mcu final)
  else pure T

/-- `OperationNoiseInfidelity.costs`, cost_functions.py:1402-1422; the number of traces of the generator is the number of
traces the solver returned. -/
noncomputable def noiseCosts (cl : Closest) (cs : Option (List n)) (T : Matrix (CompIdx cs) (CompIdx cs) ℂ) (mcu nse : Bool)
    (fwd : List (Matrix n n ℂ)) (noise : List (List (Matrix n n ℂ))) : Except PyErr ℝ := do
  let target ← effTarget cl cs T mcu nse fwd
  let l ← allOk (noise.map fun f => do
    let final ← last f
    pure (1 - entFid cl cs target final mcu))
  pure (mean l)

/-- `a += b` (cost_functions.py:1445-1452) for tables; NumPy refuses to write a sum of another shape into `a`.  (Tables with an axis of
length one that NumPy repeats to the shape of `a` do not occur: both tables have as many rows and columns as the solver has time
steps and controls, or the other way round.) -/
def addTable (a b : List (List ℝ)) : Except PyErr (List (List ℝ)) :=
  if a.map List.length = b.map List.length then .ok (List.zipWith (List.zipWith (· + ·)) a b) else .error .valueError

/-- Entry `[t][c]` of the mean over the traces. -/
noncomputable def meanTable (nt nc : Nat) (l : List (List (List ℝ))) : List (List ℝ) :=
  (List.range nt).map fun t => (List.range nc).map fun c => mean (l.map fun a => (a.getD t []).getD c 0)

/-- `OperationNoiseInfidelity.grad`, cost_functions.py:1424-1454, `nt` time steps and `nc` controls. -/
noncomputable def noiseGrad (cl : Closest) (cs : Option (List n)) (T : Matrix (CompIdx cs) (CompIdx cs) ℂ) (mcu nse : Bool)
    (nt nc : Nat) (clean : Trace n n) (noise : List (Trace n n)) : Except PyErr (List (List ℝ)) := do
  let target ← effTarget cl cs T mcu nse clean.fwd
  let l ← allOk (noise.map fun tr => do
    let temp ← derivEntFid cl cs target tr.fwd tr.dP tr.rev false
    if nse then do
      let final ← last tr.fwd
      let temp' ← derivEntFid cl cs (truncTo cl cs mcu final) clean.fwd clean.dP clean.rev false
      addTable temp temp'
    else pure temp)
  pure (meanTable nt nc (l.map negTable))

/-- `propagator = 0; += U* ⊗ U` for every trace, `*= 1 / n`; cost_functions.py:1502-1509 and 1826-1835. -/
noncomputable def meanSup (noise : List (List (Matrix n n ℂ))) : Except PyErr (Sup n) := do
  let finals ← allOk (noise.map last)
  pure ((1 / (noise.length : ℂ)) • finals.foldl (fun S U => S + unitarySup U) 0)

/-- `LiouvilleMonteCarloEntanglementInfidelity.costs`, cost_functions.py:1498-1516. -/
noncomputable def liouvilleCosts (cs : Option (List n)) (T : Matrix (CompIdx cs) (CompIdx cs) ℂ)
    (noise : List (List (Matrix n n ℂ))) : Except PyErr ℝ := do
  let P ← meanSup noise
  pure (1 - entFidSup cs T P)

/-- `LeakageError.costs`, cost_functions.py:1659-1668. -/
noncomputable def leakCosts (l : List n) (fwd : List (Matrix n n ℂ)) : Except PyErr ℝ := do
  let final ← last fwd
  let V := final.submatrix l.get l.get
  pure (max 0 (1 - (Vᴴ * V).trace.re / l.length))

/-- `LeakageError.grad`, cost_functions.py:1670-1691. -/
noncomputable def leakGrad (l : List n) (fwd : List (Matrix n n ℂ)) (dP : List (List (Matrix n n ℂ)))
    (rev : List (Matrix n n ℂ)) : Except PyErr (List (List ℝ)) := do
  let final ← last fwd
  let Vd := finalᴴ.submatrix l.get l.get
  gradTable fwd dP rev fun X => -2 / (l.length : ℝ) * (X.submatrix l.get l.get * Vd).trace.re

/-- `IncoherentLeakageError.costs`, cost_functions.py:1728-1747. -/
noncomputable def incoherentLeakCosts (l : List n) (noise : List (List (Matrix n n ℂ))) : Except PyErr ℝ := do
  let r ← allOk (noise.map fun f => do
    let final ← last f
    let V := final.submatrix l.get l.get
    pure (1 - (Vᴴ * V).trace.re / (l.length : ℝ)))
  pure (mean r)

/-- `projector_leakage`, cost_functions.py:1804-1810. -/
def projLeak (l : List n) : Matrix n n ℂ := l.foldl (fun M s => setEntry M s s 0) 1

/-- `⟨leak| P |comp⟩ / d`, cost_functions.py:1812-1819 and 1851-1863: `projector_comp = 1 - projector_leakage`, both
vectorised column by column.  The array of length one that is returned is identified with its entry. -/
noncomputable def leakElement (l : List n) (P : Sup n) : ℝ :=
  (1 / (l.length : ℝ)) * (vec (projLeak l) ⬝ᵥ (P *ᵥ vec (1 - projLeak l))).re

/-- `LeakageLiouville.costs` with `input_unitary=True`, `monte_carlo=False`, cost_functions.py:1823-1865. -/
noncomputable def leakLiouville (l : List n) (fwd : List (Matrix n n ℂ)) : Except PyErr ℝ := do
  let final ← last fwd
  pure (leakElement l (unitarySup final))

/-- `LeakageLiouville.costs` with `input_unitary=True`, `monte_carlo=True`. -/
noncomputable def leakLiouvilleMC (l : List n) (noise : List (List (Matrix n n ℂ))) : Except PyErr ℝ := do
  let P ← meanSup noise
  pure (leakElement l P)

end
end Verif.Cost
