import Mathlib.Data.Complex.Basic
import Mathlib.Algebra.Order.Floor.Ring
import Mathlib.Algebra.Order.Archimedean.Real.Basic
import Mathlib.Tactic.NormNum
import Mathlib.Tactic.Linarith
import Verif.Py

/-!
# C132: `UnaryAnalyticAmpFunc` and the data types of `np.vectorize` (amplitude_functions.py:140-185)

`np.vectorize` without `otypes` takes the data type of its result from the value at the first entry of the array.  Numbers are the
Python types bool, int, float and complex, exact and unbounded.  Not modelled: other types returned by the function, integers beyond
64 bits, infinities and nan, functions which raise or have side effects (the function is called twice at the first entry).
-/

namespace Verif.Sim.Vectorize
open Verif

/-! ## Model -/

/-- A number returned by a Python function. -/
inductive Num where
  | bool (b : Bool)
  | int (z : ℤ)
  | float (r : ℝ)
  | complex (z : ℂ)

/-- The numpy data types `?`, `l`, `d` and `D`. -/
inductive Kind where
  | bool
  | int
  | float
  | complex
  deriving DecidableEq

/-- `asarray(value).dtype`. -/
def Num.kind : Num → Kind
  | .bool _ => .bool
  | .int _ => .int
  | .float _ => .float
  | .complex _ => .complex

/-- `int(r)`: towards zero. -/
noncomputable def trunc (r : ℝ) : ℤ := if 0 ≤ r then ⌊r⌋ else ⌈r⌉

open scoped Classical in
/-- One entry of `asanyarray(outputs, dtype=otypes)`: `bool(v)`, `int(v)`, `float(v)` or `complex(v)`; `int` and `float` of a complex
number raise TypeError. -/
noncomputable def cast : Kind → Num → Except PyErr Num
  | .bool, .bool b => .ok (.bool b)
  | .bool, .int z => .ok (.bool (decide (z ≠ 0)))
  | .bool, .float r => .ok (.bool (decide (r ≠ 0)))
  | .bool, .complex z => .ok (.bool (decide (z ≠ 0)))
  | .int, .bool b => .ok (.int (if b then 1 else 0))
  | .int, .int z => .ok (.int z)
  | .int, .float r => .ok (.int (trunc r))
  | .int, .complex _ => .error .typeError
  | .float, .bool b => .ok (.float (if b then 1 else 0))
  | .float, .int z => .ok (.float z)
  | .float, .float r => .ok (.float r)
  | .float, .complex _ => .error .typeError
  | .complex, .bool b => .ok (.complex (if b then 1 else 0))
  | .complex, .int z => .ok (.complex z)
  | .complex, .float r => .ok (.complex r)
  | .complex, .complex z => .ok (.complex z)

/-- Evaluates a list of computations in order. -/
def inTurn {α β : Type} (f : α → Except PyErr β) : List α → Except PyErr (List β)
  | [] => .ok []
  | a :: l => do let b ← f a; let r ← inTurn f l; pure (b :: r)

/-- `np.vectorize(f)(x)` for a two dimensional array, amplitude_functions.py:161-162, 166 and 170: without entries ValueError. -/
noncomputable def vectorize (f : ℝ → Num) (x : List (List ℝ)) : Except PyErr (List (List Num)) :=
  match x.flatten with
  | [] => .error .valueError
  | a :: _ => inTurn (inTurn fun r => cast (f a).kind (f r)) x

/-- The numbers of an array. -/
noncomputable def Num.val : Num → ℂ
  | .bool b => if b then 1 else 0
  | .int z => z
  | .float r => r
  | .complex z => z

/-- `np.einsum('ij,ikj->ikj', du_by_dx, deriv_by_ctrl_amps)` for arrays of fitting shapes, amplitude_functions.py:168-175: entry
`(t, f, c)` is the derivative of amplitude `(t, c)` times that of function `f`. -/
noncomputable def scaleRows (d : List (List ℂ)) (g : List (List (List ℂ))) : List (List (List ℂ)) :=
  List.zipWith (fun dr gr => gr.map fun gf => List.zipWith (· * ·) dr gf) d g

/-- `UnaryAnalyticAmpFunc.derivative_by_chain_rule`, amplitude_functions.py:168-175. -/
noncomputable def unaryChain (df : ℝ → Num) (g : List (List (List ℂ))) (x : List (List ℝ)) : Except PyErr (List (List (List ℂ))) := do
  let d ← vectorize df x
  pure (scaleRows (d.map (List.map Num.val)) g)

/-! ## Specification -/

/-- The entries of `u` are the values of the function at the entries of `x`. -/
def Pointwise (f : ℝ → Num) (x : List (List ℝ)) (u : List (List Num)) : Prop :=
  u.map (List.map Num.val) = x.map (List.map fun r => (f r).val)

/-- The numbers of a data type. -/
def Kind.numbers : Kind → Set ℂ
  | .bool => {0, 1}
  | .int => Set.range fun z : ℤ => (z : ℂ)
  | .float => Set.range fun r : ℝ => (r : ℂ)
  | .complex => Set.univ

/-- A value which can be stored in an array of the data type: its number is one of the type, and a complex value is not to be stored as
int or float, whatever its imaginary part. -/
def Fits (k : Kind) (v : Num) : Prop := v.val ∈ k.numbers ∧ (v.kind = .complex → k = .complex ∨ k = .bool)

/-- The conversion to a wider type. -/
def Kind.rank : Kind → Nat
  | .bool => 0
  | .int => 1
  | .float => 2
  | .complex => 3

/-! ## Lemmas -/

theorem trunc_eq_iff (r : ℝ) : ((trunc r : ℤ) : ℝ) = r ↔ ∃ z : ℤ, (z : ℝ) = r := by
  refine ⟨fun h => ⟨_, h⟩, ?_⟩
  rintro ⟨z, rfl⟩
  unfold trunc
  split <;> simp

/-- A value survives the conversion exactly if it fits. -/
theorem cast_val (k : Kind) (v : Num) : (∃ w, cast k v = .ok w ∧ w.val = v.val) ↔ Fits k v := by
  cases k with
  | bool =>
    cases v with
    | bool b => cases b <;> simp [cast, Fits, Kind.numbers, Num.val, Num.kind]
    | int z =>
      by_cases h : z = 0
      · simp [cast, Fits, Kind.numbers, Num.val, Num.kind, h]
      · simp [cast, Fits, Kind.numbers, Num.val, Num.kind, h, eq_comm]
    | float r =>
      by_cases h : r = 0
      · simp [cast, Fits, Kind.numbers, Num.val, Num.kind, h]
      · simp [cast, Fits, Kind.numbers, Num.val, Num.kind, h, eq_comm]
    | complex z =>
      by_cases h : z = 0
      · simp [cast, Fits, Kind.numbers, Num.val, Num.kind, h]
      · simp [cast, Fits, Kind.numbers, Num.val, Num.kind, h, eq_comm]
  | int =>
    cases v with
    | bool b =>
      have : (0 : ℂ) ∈ Set.range (fun z : ℤ => (z : ℂ)) := ⟨0, by simp⟩
      have : (1 : ℂ) ∈ Set.range (fun z : ℤ => (z : ℂ)) := ⟨1, by simp⟩
      cases b <;> simp_all [cast, Fits, Kind.numbers, Num.val, Num.kind]
    | int z => simp [cast, Fits, Kind.numbers, Num.val, Num.kind]
    | float r =>
      have e : ((trunc r : ℤ) : ℂ) = (r : ℂ) ↔ ((trunc r : ℤ) : ℝ) = r := by
        rw [← Complex.ofReal_intCast]; exact Complex.ofReal_inj
      have e' : (∃ z : ℤ, (z : ℂ) = (r : ℂ)) ↔ ∃ z : ℤ, (z : ℝ) = r :=
        exists_congr fun z => by rw [← Complex.ofReal_intCast]; exact Complex.ofReal_inj
      simp only [cast, Fits, Kind.numbers, Num.val, Num.kind, Except.ok.injEq, exists_eq_left', Set.mem_range, reduceCtorEq,
        false_implies, and_true]
      rw [e, e', trunc_eq_iff]
    | complex z => simp [cast, Fits, Kind.numbers, Num.val, Num.kind]
  | float =>
    cases v with
    | bool b =>
      cases b <;> simp [cast, Fits, Kind.numbers, Num.val, Num.kind]
    | int z =>
      have : ∃ r : ℝ, (r : ℂ) = (z : ℂ) := ⟨z, by simp⟩
      simp [cast, Fits, Kind.numbers, Num.val, Num.kind, this]
    | float r => simp [cast, Fits, Kind.numbers, Num.val, Num.kind]
    | complex z => simp [cast, Fits, Kind.numbers, Num.val, Num.kind]
  | complex => cases v <;> simp [cast, Fits, Kind.numbers, Num.val, Num.kind]

/-- Evaluating in turn, for a relation between input and output. -/
theorem inTurn_iff {α β γ : Type} (f : α → Except PyErr β) (p : β → γ) (g : α → γ) (l : List α) :
    (∃ u, inTurn f l = .ok u ∧ u.map p = l.map g) ↔ ∀ a ∈ l, ∃ b, f a = .ok b ∧ p b = g a := by
  induction l with
  | nil => simp [inTurn]
  | cons a l ih =>
    simp only [inTurn, bind, Except.bind, pure, Except.pure, List.forall_mem_cons]
    rw [← ih]
    cases ha : f a with
    | error e => simp
    | ok b =>
      cases hl : inTurn f l with
      | error e => simp
      | ok r => simp

theorem fits_of_rank {k : Kind} {v : Num} (h : v.kind.rank ≤ k.rank) : Fits k v := by
  rw [← cast_val]
  cases k <;> cases v <;> first
    | (exfalso; simp [Num.kind, Kind.rank] at h; done)
    | exact ⟨_, rfl, rfl⟩
    | (refine ⟨_, rfl, ?_⟩; simp [Num.val]; done)
    | (rename_i b; exact ⟨_, rfl, by cases b <;> simp [Num.val]⟩)

/-! ## C132 -/

/-- **C132** (complete characterisation): the amplitudes are the values of the function at every entry of the pulse exactly if every
value can be stored in the data type of the value at the first entry. -/
theorem c132_iff (f : ℝ → Num) (x : List (List ℝ)) (a : ℝ) (rest : List ℝ) (hx : x.flatten = a :: rest) :
    (∃ u, vectorize f x = .ok u ∧ Pointwise f x u) ↔ ∀ r ∈ x.flatten, Fits (f a).kind (f r) := by
  unfold vectorize Pointwise
  rw [hx]
  simp only
  rw [← hx, inTurn_iff]
  simp only [inTurn_iff, cast_val]
  simp only [List.mem_flatten]
  exact ⟨fun h r ⟨l, hl, hr⟩ => h l hl r hr, fun h l hl r hr => h r ⟨l, hl, hr⟩⟩

/-- **C132** (partial: functions whose values have one type, or none wider than that of the first value) The amplitudes are the values
of the function.  Missing: other functions, see `c132_violated`, and pulses without entries, see `c132_violated_empty`. -/
theorem c132_values_partial (f : ℝ → Num) (x : List (List ℝ)) (a : ℝ) (rest : List ℝ) (hx : x.flatten = a :: rest)
    (h : ∀ r, (f r).kind.rank ≤ (f a).kind.rank) : ∃ u, vectorize f x = .ok u ∧ Pointwise f x u :=
  (c132_iff f x a rest hx).2 fun r _ => fits_of_rank (h r)

/-- The rectifier `lambda x: 0 if x < 0 else x`. -/
noncomputable def rectify (r : ℝ) : Num := open scoped Classical in if r < 0 then .int 0 else .float r

/-- **C132** is violated: with the rectifier the pulse (-1, 1/2) gives the amplitudes (0, 0) where the function has the values (0, 1/2);
the same entry 1/2 after the entry 1 gives the amplitude 1/2, so that an amplitude depends on the first entry of the pulse. -/
theorem c132_violated :
    vectorize rectify [[-1], [1 / 2]] = .ok [[.int 0], [.int 0]] ∧ ¬ Pointwise rectify [[-1], [1 / 2]] [[.int 0], [.int 0]] ∧
    vectorize rectify [[1], [1 / 2]] = .ok [[.float 1], [.float (1 / 2)]] := by
  have e1 : rectify (-1) = .int 0 := by unfold rectify; rw [if_pos (by norm_num)]
  have e2 : rectify (1 / 2) = .float (1 / 2) := by unfold rectify; rw [if_neg (by norm_num)]
  have e3 : rectify 1 = .float 1 := by unfold rectify; rw [if_neg (by norm_num)]
  have ht : trunc (1 / 2) = 0 := by unfold trunc; rw [if_pos (by norm_num), Int.floor_eq_iff]; norm_num
  refine ⟨?_, ?_, ?_⟩
  · simp only [vectorize, List.flatten_cons, List.flatten_nil, List.append_nil, List.cons_append, List.nil_append, inTurn, e1, e2,
      Num.kind, cast, ht]
    rfl
  · simp only [Pointwise, List.map_cons, List.map_nil, e1, e2, Num.val]
    norm_num
  · simp only [vectorize, List.flatten_cons, List.flatten_nil, List.append_nil, List.cons_append, List.nil_append, inTurn, e2, e3,
      Num.kind, cast]
    rfl

/-- **C132** (violated): more generally every later value which is not an integer is changed if the first value is an integer. -/
theorem c132_violated_first (f : ℝ → Num) (x : List (List ℝ)) (a : ℝ) (rest : List ℝ) (hx : x.flatten = a :: rest) (z : ℤ)
    (ha : f a = .int z) (r : ℝ) (hr : r ∈ rest) (v : ℝ) (hv : f r = .float v) (hn : ∀ k : ℤ, (k : ℝ) ≠ v) :
    ¬ ∃ u, vectorize f x = .ok u ∧ Pointwise f x u := by
  rw [c132_iff f x a rest hx]
  intro h
  have h1 := (h r (by rw [hx]; exact List.mem_cons_of_mem _ hr)).1
  rw [ha] at h1
  obtain ⟨k, hk⟩ := h1
  · refine hn k ?_
    simp only [hv, Num.val] at hk
    rw [← Complex.ofReal_intCast] at hk
    exact Complex.ofReal_inj.1 hk

/-- **C132** (violated): a pulse without entries is rejected, whatever the function. -/
theorem c132_violated_empty (f : ℝ → Num) (x : List (List ℝ)) (hx : x.flatten = []) :
    vectorize f x = .error .valueError ∧ ∃ u, Pointwise f x u := by
  refine ⟨by unfold vectorize; rw [hx], x.map fun _ => [], ?_⟩
  unfold Pointwise
  rw [List.map_map]
  refine List.map_congr_left fun l hl => ?_
  rw [List.eq_nil_of_length_eq_zero (l := l) (by
    have := List.flatten_eq_nil_iff.1 hx l hl
    simp [this])]
  rfl

/-- **C132** (partial, gradients): under the same condition on the derivative function the chain rule multiplies every derivative by
the value of the derivative function at the entry of the pulse: entry `(t, f, c)` of the result is `df(x[t][c]) * g[t][f][c]`. -/
theorem c132_gradient_partial (df : ℝ → Num) (x : List (List ℝ)) (a : ℝ) (rest : List ℝ) (hx : x.flatten = a :: rest)
    (h : ∀ r, (df r).kind.rank ≤ (df a).kind.rank) (g : List (List (List ℂ))) :
    ∃ G, unaryChain df g x = .ok G ∧ ∀ (t k c : Nat) (xr : List ℝ) (gr : List (List ℂ)) (gf : List ℂ) (r : ℝ) (z : ℂ),
      x[t]? = some xr → xr[c]? = some r → g[t]? = some gr → gr[k]? = some gf → gf[c]? = some z →
      ((G[t]?.bind (·[k]?)).bind (·[c]?)) = some ((df r).val * z) := by
  obtain ⟨u, hu, hp⟩ := c132_values_partial df x a rest hx h
  refine ⟨_, by unfold unaryChain; rw [hu]; rfl, ?_⟩
  intro t k c xr gr gf r z h1 h2 h3 h4 h5
  rw [show u.map (List.map Num.val) = _ from hp]
  simp [scaleRows, List.getElem?_zipWith, List.getElem?_map, h1, h2, h3, h4, h5]

/-- The derivative `lambda x: 0 if x < 0 else 2 * x` of the smooth function which is zero for negative and x² for other arguments. -/
noncomputable def rampDeriv (r : ℝ) : Num := open scoped Classical in if r < 0 then .int 0 else .float (2 * r)

/-- **C132** (violated, gradients): for this function the gradient at the pulse (-1, 1/4) is zero where it should be 1/2 in the second
time step. -/
theorem c132_violated_gradient :
    unaryChain rampDeriv [[[1]], [[1]]] [[-1], [1 / 4]] = .ok [[[0]], [[0]]] ∧ (rampDeriv (1 / 4)).val = 1 / 2 := by
  have e1 : rampDeriv (-1) = .int 0 := by unfold rampDeriv; rw [if_pos (by norm_num)]
  have e2 : rampDeriv (1 / 4) = .float (1 / 2) := by unfold rampDeriv; rw [if_neg (by norm_num)]; norm_num
  have ht : trunc (1 / 2) = 0 := by unfold trunc; rw [if_pos (by norm_num), Int.floor_eq_iff]; norm_num
  refine ⟨?_, by rw [e2]; simp [Num.val]⟩
  simp only [unaryChain, vectorize, List.flatten_cons, List.flatten_nil, List.append_nil, List.cons_append, List.nil_append, inTurn,
    e1, e2, Num.kind, cast, ht, bind, Except.bind, pure, Except.pure]
  simp [scaleRows, Num.val]

/-! ## Cases -/

/-- `c132_values_partial` for the function `lambda x: x if x < 1 else 1`, if the first entry is below one. -/
example : ∃ u, vectorize (fun r => open scoped Classical in if r < 1 then .float r else .int 1) [[1 / 2, 3], [2, -1]] = .ok u ∧
    Pointwise (fun r => open scoped Classical in if r < 1 then .float r else .int 1) [[1 / 2, 3], [2, -1]] u := by
  refine c132_values_partial _ _ (1 / 2) [3, 2, -1] rfl fun r => ?_
  rw [if_pos (show (1 / 2 : ℝ) < 1 by norm_num)]
  split <;> simp [Num.kind, Kind.rank]

/-- `c132_violated_first` for the rectifier: two controls, the first entry negative. -/
example : ¬ ∃ u, vectorize rectify [[-3, 1 / 3], [1, 2]] = .ok u ∧ Pointwise rectify [[-3, 1 / 3], [1, 2]] u := by
  refine c132_violated_first rectify _ (-3) [1 / 3, 1, 2] rfl 0 (by unfold rectify; rw [if_pos (by norm_num)]) (1 / 3) (by simp) (1 / 3)
    (by unfold rectify; rw [if_neg (by norm_num)]) fun k hk => ?_
  have h3 : (3 * k : ℝ) = 1 := by rw [hk]; norm_num
  have : (3 * k : ℤ) = 1 := by exact_mod_cast h3
  omega

end Verif.Sim.Vectorize
