import Verif.Py
import Mathlib.Data.Real.Sqrt
import Mathlib.Analysis.SpecialFunctions.Trigonometric.Basic

/-!
# Noise trace generators (noise.py)

Floats are real numbers.  `scipy.special.erfinv` and the random generator are parameters.  Arrays of shape
`(n_noise_operators, n_traces, n_samples_per_trace)` are nested lists.
-/

namespace Verif.Noise
open Verif

/-- An array of noise samples: operators, traces, times. -/
abbrev Arr3 := List (List (List ℝ))

/-! ## Gaussian samples -/

/-- `bell_curve_1dim`, noise.py:100-102. -/
noncomputable def bell1 (x stdx : ℝ) : ℝ :=
  let normalization_factor := 1 / 2 / Real.pi / stdx
  let exponential := Real.exp (-(1 / 2) * (x / stdx) ^ 2)
  normalization_factor * exponential

/-- `bell_curve_2dim`, noise.py:198-200. -/
noncomputable def bell2 (x stdx y stdy : ℝ) : ℝ :=
  let normalization_factor := 1 / 2 / Real.pi / stdx / stdy
  let exponential := Real.exp (-(1 / 2) * ((x / stdx) ^ 2 + (y / stdy) ^ 2))
  normalization_factor * exponential

/-- `inverse_cumulative_gaussian_distribution_function`, noise.py:127. -/
noncomputable def inverseCumulative (erfinv : ℝ → ℝ) (z std mean : ℝ) : ℝ := std * √2 * erfinv (2 * z - 1) + mean

/-- `np.linspace(start=0, stop=1, num=n, endpoint=False)`. -/
noncomputable def linspaceOpen (n : Nat) : List ℝ := (List.range n).map fun (i : Nat) => (i : ℝ) * (1 / (n : ℝ))

/-- `sample_1dim_gaussian_distribution`, noise.py:158-169; `1 / (2 * 0)` raises ZeroDivisionError. -/
noncomputable def sample1dim (erfinv : ℝ → ℝ) (std : ℝ) (n : Nat) (mean : ℝ := 0) : Except PyErr (List ℝ) :=
  if n = 0 then .error .zeroDivisionError
  else
    let z := (linspaceOpen n).map fun (z : ℝ) => z + 1 / (2 * (n : ℝ))
    .ok (z.map fun z => inverseCumulative erfinv z std mean)

/-- `np.mean`. -/
noncomputable def npMean (l : List ℝ) : ℝ := l.sum / l.length

/-- `np.std`. -/
noncomputable def npStd (l : List ℝ) : ℝ := √ (npMean (l.map fun x => (x - npMean l) ^ 2))

/-! ## Quasi-static noise -/

/-- The attribute `sampling_mode`; `other` is any other string. -/
inductive Mode where
  | deterministic
  | monteCarlo
  | other
  deriving DecidableEq

/-- A `NTGQuasiStatic` object.  The list of standard deviations is held by reference: `sd` is its address.
Simplification: `_n_traces` and `_n_samples_per_trace` are positive numbers (`None` and `0` are not modelled). -/
structure QuasiStatic where
  sd : Nat
  nSamples : Nat
  nTraces : Nat
  samples : Option Arr3
  redraw : Bool
  mode : Mode

/-- The Python lists of floats, by address. -/
abbrev Heap := List (List ℝ)

/-- The content of a list. -/
def Heap.get (h : Heap) (a : Nat) : List ℝ := h.getD a []

/-- `NTGQuasiStatic.n_traces`, noise.py:466-483. -/
def QuasiStatic.nTracesProp (h : Heap) (g : QuasiStatic) : Except PyErr Nat := match g.mode with
  | .deterministic => .ok (g.nTraces * (h.get g.sd).length)
  | .monteCarlo => .ok g.nTraces
  | .other => .error .valueError

/-- `1e-20` -/
noncomputable def tiny : ℝ := 1 / 10 ^ 20

open Classical in
/-- One pass of the loop over the standard deviations in the constructor, noise.py:454-464: the entry of the list is changed. -/
noncomputable def correctOne (erfinv : ℝ → ℝ) (n : Nat) (l : List ℝ) (i : Nat) : Except PyErr (List ℝ) :=
  match sample1dim erfinv (l.getD i 0) n with
  | .error e => .error e
  | .ok samples =>
    let actual_std := npStd samples
    if actual_std < tiny then .error .runtimeError
    else .ok (l.set i (l.getD i 0 * (l.getD i 0 / actual_std)))

/-- The loop of noise.py:454-464 over the indices `is`, with the list as it is left behind when the loop is aborted. -/
noncomputable def correctLoop (erfinv : ℝ → ℝ) (n : Nat) : List ℝ → List Nat → Option PyErr × List ℝ
  | l, [] => (none, l)
  | l, i :: is => match correctOne erfinv n l i with
    | .error e => (some e, l)
    | .ok l' => correctLoop erfinv n l' is

/-- `NTGQuasiStatic.__init__`, noise.py:433-464; `sd` is the address of the caller's list.  The heap is returned also when the
constructor raises. -/
noncomputable def QuasiStatic.new (erfinv : ℝ → ℝ) (h : Heap) (sd nSamples nTraces : Nat) (samples : Option Arr3) (redraw correct : Bool)
    (mode : Mode) : Except PyErr QuasiStatic × Heap :=
  let self : QuasiStatic := { sd, nSamples, nTraces, samples, redraw, mode }
  if correct then match self.nTracesProp h with
    | .error e => (.error e, h)
    | .ok n =>
      if n = 1 then (.error .runtimeWarning, h)
      else match mode with
        | .deterministic => match correctLoop erfinv n (h.get sd) (List.range (h.get sd).length) with
          | (some e, l) => (.error e, h.set sd l)
          | (none, l) => (.ok self, h.set sd l)
        | _ => (.ok self, h)
  else (.ok self, h)

/-- `a[i, j, :] = row` -/
def setRow (a : Arr3) (i j : Nat) (row : List ℝ) : Arr3 := a.modify i fun m => m.set j row

/-- `np.zeros((m, t, s))` -/
def zeros (m t s : Nat) : Arr3 := List.replicate m (List.replicate t (List.replicate s 0))

/-- The inner loop of noise.py:501-503. -/
def fillTraces (a : Arr3) (i nTraces nSamples : Nat) (samples : List ℝ) : Arr3 :=
  (List.range nTraces).foldl (fun a j => setRow a i (i * nTraces + j) (List.replicate nSamples (samples.getD j 0 * 1))) a

/-- The outer loop of noise.py:498-503 over the numbered standard deviations. -/
noncomputable def fillOps (erfinv : ℝ → ℝ) (nTraces nSamples : Nat) : Arr3 → Nat → List ℝ → Except PyErr Arr3
  | a, _, [] => .ok a
  | a, i, std :: l => match sample1dim erfinv std nTraces with
    | .error e => .error e
    | .ok samples => fillOps erfinv nTraces nSamples (fillTraces a i nTraces nSamples samples) (i + 1) l

/-- `NTGQuasiStatic._sample_noise`, noise.py:485-517; `randn` is the array drawn by `np.random.randn` in Monte Carlo mode. -/
noncomputable def QuasiStatic.draw (erfinv : ℝ → ℝ) (h : Heap) (g : QuasiStatic) (randn : Nat → Nat → ℝ) : Except PyErr Arr3 :=
  let l := h.get g.sd
  match g.mode with
  | .deterministic => fillOps erfinv g.nTraces g.nSamples (zeros l.length (g.nTraces * l.length) g.nSamples) 0 l
  | .monteCarlo => .ok (l.mapIdx fun i std => (List.range g.nTraces).map fun j => List.replicate g.nSamples (std * randn i j))
  | .other => .error .valueError

end Verif.Noise
