import Verif.Transfer.Model
import Verif.Noise.Gauss

/-!
# C143: the Gaussian filter `GaussianMTF` (transfer_function.py:1615-1716)

The class is marked as deprecated but still exported.  `_calculate_transfer_matrix` reads the attribute `xtimes`, which no method of the
class or its base classes sets; it is part of the state here (`none`: the attribute does not exist).
-/

namespace Verif.Transfer
open Verif Verif.Noise Real MeasureTheory Set

variable {c f : Nat}

/-! ## Model -/

/-- A `GaussianMTF` object; `matrix` holds `_transfer_matrix` and `cte`.  Simplification: `omega` is a number (a list is not modelled),
`num_ctrls` is 1, as the constructor leaves it. -/
structure GFilter where
  omega : ℝ
  start : ℝ
  stop : ℝ
  base : Base ℝ
  xtimes : Option (List ℝ)
  matrix : Option (Tensor ℝ 1 × (Nat → ℝ))

/-- `GaussianMTF.__init__`, transfer_function.py:1646-1658: `over_sample_rate` is stored in `N` and `dt`, which nothing reads. -/
def GFilter.new (omega : ℝ) (_overSampleRate : Nat) (start stop : ℝ) (bound : Option Bound := some ⟨.other "w", 2⟩) : GFilter :=
  ⟨omega, start, stop, Base.init ℝ bound 1, none, none⟩

open scoped Classical in
/-- `GaussianMTF.set_times`, transfer_function.py:1706-1716, of a one dimensional argument: `times[1]` is an IndexError for fewer than two
elements, then `np.allclose` with its default tolerances; the base class stores the times before it looks at the bound type.  The
transfer matrix is not reset. -/
noncomputable def GFilter.setTimes (o : GFilter) (times : List ℝ) : Option PyErr × GFilter :=
  match times with
  | a :: b :: _ =>
    if ∀ d ∈ npDiff times, |d - (b - a)| ≤ 1 / 10 ^ 8 + 1 / 10 ^ 5 * |b - a| then
      match o.base.setTimes times with
      | .ok b' => (none, { o with base := b' })
      | .error e => (some e, { o with base := { o.base with numY := times.length, yTimes := some times } })
    else (some .exception, o)
  | _ => (some .indexError, o)

/-- `(t[:-1] + t[1:]) * 0.5`, transfer_function.py:1665-1666. -/
noncomputable def midpoints (t : List ℝ) : List ℝ := List.zipWith (fun a b => (a + b) * (1 / 2)) t t.tail

/-- `GaussianMTF._calculate_transfer_matrix`, transfer_function.py:1660-1675: the missing attribute, fewer than two elements, no times set
(`len(None)`), a negative dimension, more columns than the matrix has.  Not modelled: what a failing call leaves in `_transfer_matrix`. -/
noncomputable def GFilter.calculate (o : GFilter) : Except PyErr GFilter :=
  match o.xtimes with
  | none => .error .attributeError
  | some (x₀ :: x₁ :: xs) =>
    match o.base.yTimes with
    | none => .error .typeError
    | some [] => .error .valueError
    | some yt =>
      let dxt := (x₁ - x₀) * (1 / 4)
      let time := midpoints yt
      let xtime := midpoints (x₀ :: x₁ :: xs)
      if time ≠ [] ∧ o.base.numY < xtime.length then .error .indexError
      else
        let cte := fun j => (1 / 2 - 1 / 2 * erf (o.omega * (1 / 2) * rowAt time j)) * o.start +
          (1 / 2 + 1 / 2 * erf (o.omega * (1 / 2) * (rowAt time j - (x₁ :: xs).getLast (by simp)))) * o.stop
        let val := fun j k (_ : Fin 1) => if k < xtime.length then
            (erf (o.omega * ((rowAt time j - rowAt xtime k) * (1 / 2) + dxt)) - erf (o.omega * ((rowAt time j - rowAt xtime k) * (1 / 2) - dxt))) * (1 / 2)
          else 0
        .ok { o with matrix := some (⟨time.length, o.base.numY, val⟩, cte) }
  | some _ => .error .indexError

/-- `if self._transfer_matrix is None: self._calculate_transfer_matrix()`, transfer_function.py:1678-1679, 1688-1689. -/
noncomputable def GFilter.ready (o : GFilter) : Except PyErr GFilter := match o.matrix with
  | some _ => .ok o
  | none => o.calculate

/-- The transfer matrix with its control axis of length one repeated to fit a pulse with `c` controls. -/
def widen (c : Nat) (T : Tensor ℝ 1) : Tensor ℝ c := ⟨T.nx, T.ny, fun i j _ => T.val i j 0⟩

/-- `GaussianMTF.__call__`, transfer_function.py:1677-1683: a ValueError of the contraction is caught, 'error' is printed and None
returned. -/
noncomputable def GFilter.call (o : GFilter) (y : Pulse ℝ c) : Except PyErr (Option (Pulse ℝ c) × GFilter) := do
  let o' ← o.ready
  match o'.matrix with
  | none => .error .typeError
  | some (T, cte) => match (widen c T).apply y with
    | .ok x => pure (some (x.mapIdx fun j r k => r k + cte j), o')
    | .error _ => pure (none, o')

/-- `GaussianMTF.transfer_matrix`, transfer_function.py:1685-1690. -/
noncomputable def GFilter.transferMatrix (o : GFilter) : Except PyErr (Option (Tensor ℝ 1) × GFilter) := do
  let o' ← o.ready
  pure (o'.matrix.map Prod.fst, o')

/-- `GaussianMTF.gradient_chain_rule`, transfer_function.py:1692-1704: `einsum('ijk,...i->...j', T, g)` contracts the last axis of the
argument, which is that of the controls, with the amplitudes; an axis of length one is repeated.  A ValueError is caught and None is
returned, also when the matrix is still None. -/
noncomputable def GFilter.chain (o : GFilter) (g : Grads ℝ f c) : Option (List (Fin f → List ℝ)) := match o.matrix with
  | none => none
  | some (T, _) =>
    if c = T.nx then some (g.map fun r φ => (List.range T.ny).map fun j => ∑ i : Fin c, T.val i j 0 * r φ i)
    else if c = 1 then
      some (g.map fun r φ => (List.range T.ny).map fun j => ∑ i ∈ Finset.range T.nx, T.val i j 0 * ∑ k : Fin c, r φ k)
    else if T.nx = 1 then some (g.map fun r φ => (List.range T.ny).map fun j => ∑ i : Fin c, T.val 0 j 0 * r φ i)
    else none

/-- What a user can do with the object. -/
inductive GOp (c f : Nat) where
  | times (τ : List ℝ)
  | call (y : Pulse ℝ c)
  | matrix
  | chain (g : Grads ℝ f c)

/-- The object after one of these steps; a failing computation of the matrix leaves it as it is (see `GFilter.calculate`). -/
noncomputable def GFilter.step (o : GFilter) : GOp c f → GFilter
  | .times τ => (o.setTimes τ).2
  | .call y => match o.call y with
    | .ok r => r.2
    | .error _ => o
  | .matrix => match o.transferMatrix with
    | .ok r => r.2
    | .error _ => o
  | .chain _ => o

/-! ## Specification -/

/-- The value at time `t` of the signal which is `start` before 0, `y k` from `k * d` to `(k + 1) * d` for `k < N`, and `stop` after
`N * d`, filtered with a normal distribution of standard deviation `std`. -/
noncomputable def filtered (std t d start stop : ℝ) (N : Nat) (y : Nat → ℝ) : ℝ :=
  (∫ s in Iic (0 : ℝ), normalDensity std t s) * start + ∑ k ∈ Finset.range N, (∫ s in (k * d)..((k + 1 : ℕ) * d), normalDensity std t s) * y k +
    (∫ s in Ioi (N * d), normalDensity std t s) * stop

/-! ## Lemmas -/

theorem density_between {ω : ℝ} (hω : 0 < ω) (t a b : ℝ) :
    ∫ s in a..b, normalDensity (√2 / ω) t s = (erf (ω * (1 / 2) * (b - t)) - erf (ω * (1 / 2) * (a - t))) / 2 := by
  have hq : √2 * √2 = (2 : ℝ) := Real.mul_self_sqrt (by norm_num)
  have h := density_integral (√2 / ω) t (ω * (1 / 2) * (a - t)) (ω * (1 / 2) * (b - t)) (by positivity)
  have e : ∀ z, √2 / ω * √2 * (ω * (1 / 2) * (z - t)) + t = z := by
    intro z
    have : √2 / ω * √2 * (ω * (1 / 2) * (z - t)) = (√2 * √2) * (1 / 2) * (z - t) := by field_simp
    rw [this, hq]
    ring
  rwa [e, e] at h

theorem density_integrable {ω : ℝ} (hω : 0 < ω) (t : ℝ) : Integrable (normalDensity (√2 / ω) t) := by
  have h := (integrable_exp_neg_mul_sq (b := ω ^ 2 / 4) (by positivity)).comp_sub_right t
  refine (h.const_mul (1 / (√2 / ω * √(2 * π)))).congr (Filter.Eventually.of_forall fun s => ?_)
  have hq : √2 ^ 2 = (2 : ℝ) := Real.sq_sqrt (by norm_num)
  simp only [normalDensity]
  congr 2
  rw [div_pow, hq]
  field_simp
  ring

theorem density_below {ω : ℝ} (hω : 0 < ω) (t a : ℝ) :
    ∫ s in Iic a, normalDensity (√2 / ω) t s = (erf (ω * (1 / 2) * (a - t)) + 1) / 2 := by
  have h1 := intervalIntegral_tendsto_integral_Iic a (density_integrable hω t).integrableOn Filter.tendsto_id
  have h2 : Filter.Tendsto (fun z : ℝ => ω * (1 / 2) * (z - t)) Filter.atBot Filter.atBot := by
    refine Filter.Tendsto.const_mul_atBot (by positivity) ?_
    exact Filter.tendsto_atBot_add_const_right _ _ Filter.tendsto_id
  have h3 := ((erf_tendsto_neg.comp h2).const_sub (erf (ω * (1 / 2) * (a - t)))).div_const 2
  have h4 := tendsto_nhds_unique h1 (h3.congr fun z => (density_between hω t z a).symm)
  rw [h4]
  ring

theorem density_above {ω : ℝ} (hω : 0 < ω) (t a : ℝ) :
    ∫ s in Ioi a, normalDensity (√2 / ω) t s = (1 - erf (ω * (1 / 2) * (a - t))) / 2 := by
  have h1 := intervalIntegral_tendsto_integral_Ioi a (density_integrable hω t).integrableOn Filter.tendsto_id
  have h2 : Filter.Tendsto (fun z : ℝ => ω * (1 / 2) * (z - t)) Filter.atTop Filter.atTop := by
    refine Filter.Tendsto.const_mul_atTop (by positivity) ?_
    exact Filter.tendsto_atTop_add_const_right _ _ Filter.tendsto_id
  have h3 := ((erf_tendsto.comp h2).sub_const (erf (ω * (1 / 2) * (a - t)))).div_const 2
  exact tendsto_nhds_unique h1 (h3.congr fun z => (density_between hω t a z).symm)

theorem midpoints_length (t : List ℝ) : (midpoints t).length = t.length - 1 := by simp [midpoints]

theorem midpoints_at (t : List ℝ) (j : Nat) (h : j + 1 < t.length) : rowAt (midpoints t) j = (rowAt t j + rowAt t (j + 1)) * (1 / 2) := by
  have h1 : j < (midpoints t).length := by rw [midpoints_length]; omega
  simp only [rowAt, List.getD_eq_getElem?_getD, List.getElem?_eq_getElem h1, List.getElem?_eq_getElem h,
    List.getElem?_eq_getElem (show j < t.length by omega), Option.getD_some]
  simp [midpoints]

/-- The boundaries of `N` steps of duration `d`. -/
noncomputable def boundaries (N : Nat) (d : ℝ) : List ℝ := (List.range (N + 1)).map fun k : Nat => (k : ℝ) * d

theorem boundaries_at {N : Nat} (d : ℝ) {k : Nat} (h : k ≤ N) : rowAt (boundaries N d) k = k * d := by
  simp [rowAt, boundaries, List.getElem?_range (show k < N + 1 by omega)]

/-- What `set_times` leaves behind when it does not find the times unequal. -/
theorem setTimes_state {o : GFilter} {τ : List ℝ} (h2 : 2 ≤ τ.length) (h : (o.setTimes τ).1 ≠ some .exception) :
    (o.setTimes τ).2.base.yTimes = some τ ∧ (o.setTimes τ).2.base.numY = τ.length ∧ (o.setTimes τ).2.matrix = o.matrix ∧
      (o.setTimes τ).2.omega = o.omega ∧ (o.setTimes τ).2.start = o.start ∧ (o.setTimes τ).2.stop = o.stop := by
  match τ, h2 with
  | a :: b :: l, _ =>
    unfold GFilter.setTimes at h ⊢
    dsimp only at h ⊢
    split_ifs at h ⊢ with hc
    · cases hb : o.base.setTimes (a :: b :: l) with
      | error e => exact ⟨rfl, rfl, rfl, rfl, rfl, rfl⟩
      | ok b' =>
        dsimp only
        refine ⟨?_, ?_, rfl, rfl, rfl, rfl⟩ <;>
        · unfold Base.setTimes at hb
          dsimp only at hb
          split at hb <;> (try split at hb) <;> simp_all <;> (rw [← hb])
    · exact absurd rfl h

theorem setTimes_not_exception {b : Base ℝ} {τ : List ℝ} {e : PyErr} (h : b.setTimes τ = .error e) : e ≠ .exception := by
  unfold Base.setTimes at h
  dsimp only at h
  split at h <;> (try split at h) <;> cases h <;> simp

/-! ## C143 -/

/-- **C143** (partial): on an object whose missing attribute `xtimes` is set by hand to the boundaries of `N` steps of equal duration
`d`, `N` the number of the times of `set_times`, the amplitudes are the values of the signal filtered with a normal distribution of
standard deviation `√2 / omega`, at the midpoints between the numbers passed to `set_times`, one less than there are steps.
Missing: the object as it is (`c143_violated`), and that these midpoints are times of the pulse (`c143_violated_equal`). -/
theorem c143_filter_partial (ω d start stop : ℝ) (rate : Nat) (bound : Option Bound) (hω : 0 < ω) (τ : List ℝ) (h2 : 2 ≤ τ.length)
    (ht : ((GFilter.new ω rate start stop bound).setTimes τ).1 ≠ some .exception) (y : Pulse ℝ c) (hy : y.length = τ.length) :
    ∃ (x : Pulse ℝ c) (o' : GFilter), { ((GFilter.new ω rate start stop bound).setTimes τ).2 with xtimes := some (boundaries τ.length d) }.call y = .ok (some x, o') ∧
      x.length = τ.length - 1 ∧
      ∀ j, j + 1 < τ.length → ∀ k, rowAt x j k =
        filtered (√2 / ω) ((rowAt τ j + rowAt τ (j + 1)) / 2) d start stop τ.length (fun i => rowAt y i k) := by
  obtain ⟨e1, e2, e3, e4, e5, e6⟩ := setTimes_state h2 ht
  generalize ((GFilter.new ω rate start stop bound).setTimes τ).2 = o at *
  have e3 : o.matrix = none := e3
  have e4 : o.omega = ω := e4
  have e5 : o.start = start := e5
  have e6 : o.stop = stop := e6
  obtain ⟨a, b, l, rfl⟩ : ∃ a b l, τ = a :: b :: l := by
    match τ, h2 with
    | a :: b :: l, _ => exact ⟨a, b, l, rfl⟩
  generalize hN : (a :: b :: l).length = N at *
  obtain ⟨x₀, x₁, xs, hX⟩ : ∃ x₀ x₁ xs, boundaries N d = x₀ :: x₁ :: xs := by
    match hb : boundaries N d with
    | [] => have := congrArg List.length hb; simp [boundaries] at this
    | [_] => have := congrArg List.length hb; simp [boundaries] at this; omega
    | x₀ :: x₁ :: xs => exact ⟨_, _, _, rfl⟩
  have hXl : (x₀ :: x₁ :: xs).length = N + 1 := by rw [← hX]; simp [boundaries]
  have h0 : x₀ = 0 := by
    have := boundaries_at (N := N) d (k := 0) (by omega)
    rw [hX] at this
    simpa [rowAt] using this
  have h1 : x₁ = d := by
    have := boundaries_at (N := N) d (k := 1) (by omega)
    rw [hX] at this
    simpa [rowAt] using this
  have hlast : (x₁ :: xs).getLast (by simp) = N * d := by
    have := boundaries_at (N := N) d (k := N) le_rfl
    rw [hX] at this
    rw [← this, rowAt, List.getLast_eq_getElem]
    have hl : xs.length + 1 = N := by simpa using hXl
    obtain ⟨M, rfl⟩ : ∃ M, N = M + 1 := ⟨N - 1, by omega⟩
    have hM : xs.length = M := by omega
    subst hM
    simp [List.getD_eq_getElem?_getD]
  have hm : (midpoints (x₀ :: x₁ :: xs)).length = N := by rw [midpoints_length, hXl]; rfl
  have hmt : (midpoints (a :: b :: l)).length = N - 1 := by rw [midpoints_length, hN]
  simp only [GFilter.call, GFilter.ready, e3, GFilter.calculate, hX, e1, e2, hm, lt_irrefl, and_false, if_false, bind, Except.bind, widen,
    Tensor.apply, hy, if_true, pure, Except.pure, e4, e5, e6]
  refine ⟨_, _, rfl, by simp [hmt], fun j hj k => ?_⟩
  rw [hlast, h0, h1, hmt]
  simp only [rowAt, List.getD_eq_getElem?_getD, List.getElem?_mapIdx, List.getElem?_map, List.getElem?_range (show j < N - 1 by omega),
    Option.map_some, Option.getD_some]
  have hmj := midpoints_at (a :: b :: l) j (by omega)
  simp only [rowAt, List.getD_eq_getElem?_getD] at hmj
  rw [hmj]
  generalize ht : ((a :: b :: l)[j]?.getD 0 + (a :: b :: l)[j + 1]?.getD 0) = t2
  rw [filtered, density_below hω, density_above hω]
  have hsum : ∀ i ∈ Finset.range N, (∫ s in ((i : ℝ) * d)..((i + 1 : ℕ) * d), normalDensity (√2 / ω) (t2 / 2) s) * (y[i]?.getD 0) k =
      (if i < N then (erf (ω * ((t2 * (1 / 2) - (midpoints (0 :: d :: xs))[i]?.getD 0) * (1 / 2) + (d - 0) * (1 / 4))) -
        erf (ω * ((t2 * (1 / 2) - (midpoints (0 :: d :: xs))[i]?.getD 0) * (1 / 2) - (d - 0) * (1 / 4)))) * (1 / 2) else 0) * (y[i]?.getD 0) k := by
    intro i hi
    have hi := Finset.mem_range.1 hi
    have hmi := midpoints_at (x₀ :: x₁ :: xs) i (by omega)
    rw [← hX, boundaries_at d (by omega), boundaries_at d (by omega), hX, h0, h1] at hmi
    simp only [rowAt, List.getD_eq_getElem?_getD] at hmi
    rw [if_pos hi, hmi, density_between hω]
    congr 1
    have q1 : ω * (1 / 2) * (((i + 1 : ℕ) : ℝ) * d - t2 / 2) =
        -(ω * ((t2 * (1 / 2) - ((i : ℝ) * d + ((i + 1 : ℕ) : ℝ) * d) * (1 / 2)) * (1 / 2) - (d - 0) * (1 / 4))) := by push_cast; ring
    have q2 : ω * (1 / 2) * ((i : ℝ) * d - t2 / 2) =
        -(ω * ((t2 * (1 / 2) - ((i : ℝ) * d + ((i + 1 : ℕ) : ℝ) * d) * (1 / 2)) * (1 / 2) + (d - 0) * (1 / 4))) := by push_cast; ring
    rw [q1, q2, erf_neg, erf_neg]
    ring
  rw [Finset.sum_congr rfl hsum]
  have q3 : ω * (1 / 2) * (0 - t2 / 2) = -(ω * (1 / 2) * (t2 * (1 / 2))) := by ring
  have q4 : ω * (1 / 2) * ((N : ℝ) * d - t2 / 2) = -(ω * (1 / 2) * (t2 * (1 / 2) - N * d)) := by ring
  rw [q3, q4, erf_neg, erf_neg]
  ring

theorem filtered_const {ω : ℝ} (hω : 0 < ω) (t d v : ℝ) (N : Nat) : filtered (√2 / ω) t d v v N (fun _ => v) = v := by
  have h : ∀ M : Nat, ∑ k ∈ Finset.range M, (∫ s in ((k : ℝ) * d)..((k + 1 : ℕ) * d), normalDensity (√2 / ω) t s) * v =
      (erf (ω * (1 / 2) * (M * d - t)) - erf (ω * (1 / 2) * (0 - t))) / 2 * v := by
    intro M
    induction M with
    | zero => simp
    | succ M ih => rw [Finset.sum_range_succ, ih, density_between hω]; ring
  rw [filtered, h, density_below hω, density_above hω]
  ring

theorem filtered_mono {ω : ℝ} (hω : 0 < ω) (t : ℝ) {d s s' e e' : ℝ} (hd : 0 ≤ d) (N : Nat) {y y' : Nat → ℝ} (hs : s ≤ s') (he : e ≤ e')
    (hy : ∀ k < N, y k ≤ y' k) : filtered (√2 / ω) t d s e N y ≤ filtered (√2 / ω) t d s' e' N y' := by
  unfold filtered
  have hb := neg_one_lt_erf (ω * (1 / 2) * (0 - t))
  have ha := erf_lt_one (ω * (1 / 2) * (N * d - t))
  refine add_le_add (add_le_add (mul_le_mul_of_nonneg_left hs ?_) (Finset.sum_le_sum fun k hk => mul_le_mul_of_nonneg_left
    (hy k (Finset.mem_range.1 hk)) ?_)) (mul_le_mul_of_nonneg_left he ?_)
  · rw [density_below hω]; linarith
  · rw [density_between hω]
    have : erf (ω * (1 / 2) * (k * d - t)) ≤ erf (ω * (1 / 2) * ((k + 1 : ℕ) * d - t)) := by
      refine erf_strictMono.monotone (mul_le_mul_of_nonneg_left ?_ (by positivity))
      push_cast
      linarith
    linarith
  · rw [density_above hω]; linarith

/-- **C143** (partial): the amplitudes stay within the range of the pulse and the two boundary values; in particular a constant signal is
not changed.  Missing as for `c143_filter_partial`. -/
theorem c143_range_partial (ω d start stop : ℝ) (rate : Nat) (bound : Option Bound) (hω : 0 < ω) (hd : 0 ≤ d) (τ : List ℝ) (h2 : 2 ≤ τ.length)
    (ht : ((GFilter.new ω rate start stop bound).setTimes τ).1 ≠ some .exception) (y : Pulse ℝ c) (hy : y.length = τ.length) (lo hi : ℝ)
    (hs : lo ≤ start ∧ start ≤ hi) (he : lo ≤ stop ∧ stop ≤ hi) (hr : ∀ r ∈ y, ∀ k, lo ≤ r k ∧ r k ≤ hi) :
    ∃ (x : Pulse ℝ c) (o' : GFilter),
      { ((GFilter.new ω rate start stop bound).setTimes τ).2 with xtimes := some (boundaries τ.length d) }.call y = .ok (some x, o') ∧
      x.length = τ.length - 1 ∧ ∀ r ∈ x, ∀ k, lo ≤ r k ∧ r k ≤ hi := by
  obtain ⟨x, o', h, hl, hv⟩ := c143_filter_partial ω d start stop rate bound hω τ h2 ht y hy
  refine ⟨x, o', h, hl, fun r hrx k => ?_⟩
  obtain ⟨j, hj, rfl⟩ := List.getElem_of_mem hrx
  have hx := hv j (by omega) k
  have hyk : ∀ i < τ.length, lo ≤ rowAt y i k ∧ rowAt y i k ≤ hi := by
    intro i hi'
    have hi' : i < y.length := by omega
    have e : rowAt y i = y[i] := by simp [rowAt, List.getElem?_eq_getElem hi']
    rw [e]
    exact hr _ (List.getElem_mem _) k
  have e : rowAt x j = x[j] := by simp [rowAt, List.getElem?_eq_getElem hj]
  rw [e] at hx
  rw [hx]
  constructor
  · rw [← filtered_const hω ((rowAt τ j + rowAt τ (j + 1)) / 2) d lo τ.length]
    exact filtered_mono hω _ hd _ hs.1 he.1 fun i hi' => (hyk i hi').1
  · rw [← filtered_const hω ((rowAt τ j + rowAt τ (j + 1)) / 2) d hi τ.length]
    exact filtered_mono hω _ hd _ hs.2 he.2 fun i hi' => (hyk i hi').2

/-- **C143 violated**: whatever is done with a new object, evaluating a pulse and reading the transfer matrix raise AttributeError, and
`gradient_chain_rule` returns None. -/
theorem c143_violated (ω start stop : ℝ) (rate : Nat) (bound : Option Bound) (ops : List (GOp c f)) (y : Pulse ℝ c) (g : Grads ℝ f c) :
    (ops.foldl GFilter.step (GFilter.new ω rate start stop bound)).call y = .error .attributeError ∧
      (ops.foldl GFilter.step (GFilter.new ω rate start stop bound)).transferMatrix = .error .attributeError ∧
      (ops.foldl GFilter.step (GFilter.new ω rate start stop bound)).chain g = none := by
  have fails : ∀ o : GFilter, o.xtimes = none → o.matrix = none → (∀ y : Pulse ℝ c, o.call y = .error .attributeError) ∧
      o.transferMatrix = .error .attributeError ∧ ∀ g : Grads ℝ f c, o.chain g = none := by
    intro o h1 h2
    have hr : o.ready = .error .attributeError := by simp [GFilter.ready, GFilter.calculate, h1, h2]
    exact ⟨fun y => by simp [GFilter.call, hr, bind, Except.bind], by simp [GFilter.transferMatrix, hr, bind, Except.bind],
      fun g => by simp [GFilter.chain, h2]⟩
  have inv : ∀ (ops : List (GOp c f)) (o : GFilter), o.xtimes = none → o.matrix = none →
      (ops.foldl GFilter.step o).xtimes = none ∧ (ops.foldl GFilter.step o).matrix = none := by
    intro ops
    induction ops with
    | nil => exact fun o h1 h2 => ⟨h1, h2⟩
    | cons op ops ih =>
      intro o h1 h2
      obtain ⟨f1, f2, -⟩ := fails o h1 h2
      refine ih _ ?_ ?_ <;> cases op
      · simp only [GFilter.step, GFilter.setTimes]
        split <;> (try split) <;> (try split) <;> exact h1
      · simpa only [GFilter.step, f1] using h1
      · simpa only [GFilter.step, f2] using h1
      · exact h1
      · simp only [GFilter.step, GFilter.setTimes]
        split <;> (try split) <;> (try split) <;> exact h2
      · simpa only [GFilter.step, f1] using h2
      · simpa only [GFilter.step, f2] using h2
      · exact h2
  obtain ⟨h1, h2⟩ := inv ops (GFilter.new ω rate start stop bound) rfl rfl
  obtain ⟨f1, f2, f3⟩ := fails _ h1 h2
  exact ⟨f1 y, f2, f3 g⟩

/-- **C143 violated**: with the default bound type no times are accepted. -/
theorem c143_violated_default (ω start stop : ℝ) (rate : Nat) (τ : List ℝ) : ((GFilter.new ω rate start stop).setTimes τ).1 ≠ none := by
  unfold GFilter.setTimes
  split
  · split_ifs
    · simp [GFilter.new, Base.setTimes, Base.init]
    · simp
  · simp

/-- **C143 violated** also with the attribute: the durations of the steps are taken for points in time, so that for steps of equal duration
all amplitudes are the same. -/
theorem c143_violated_equal (ω d start stop w : ℝ) (rate : Nat) (bound : Option Bound) (hω : 0 < ω) (N : Nat) (h2 : 2 ≤ N)
    (y : Pulse ℝ c) (hy : y.length = N) :
    ∃ (x : Pulse ℝ c) (o' : GFilter),
      { ((GFilter.new ω rate start stop bound).setTimes (List.replicate N w)).2 with xtimes := some (boundaries N d) }.call y = .ok (some x, o') ∧
      x.length = N - 1 ∧ ∀ r ∈ x, ∀ r' ∈ x, r = r' := by
  have ht : ((GFilter.new ω rate start stop bound).setTimes (List.replicate N w)).1 ≠ some .exception := by
    obtain ⟨M, rfl⟩ : ∃ M, N = M + 2 := ⟨N - 2, by omega⟩
    have hd : ∀ M, ∀ d ∈ npDiff (List.replicate M w), d = 0 := by
      intro M
      induction M with
      | zero => simp [npDiff]
      | succ M ih =>
        cases M with
        | zero => simp [npDiff]
        | succ M =>
          intro d hd
          simp only [List.replicate_succ, npDiff, List.mem_cons] at hd
          rcases hd with hd | hd
          · rw [hd]; ring
          · exact ih d (by simpa [List.replicate_succ] using hd)
    simp only [List.replicate_succ, GFilter.setTimes]
    rw [if_pos]
    · split
      · simp
      · rename_i e he
        simpa using setTimes_not_exception he
    · intro d hd'
      rw [hd (M + 2) d (by simpa [List.replicate_succ] using hd')]
      norm_num
  obtain ⟨x, o', h, hl, hv⟩ := c143_filter_partial ω d start stop rate bound hω (List.replicate N w) (by simpa using h2) ht y (by simpa using hy)
  rw [List.length_replicate] at h hl hv
  refine ⟨x, o', h, hl, ?_⟩
  have hall : ∀ r ∈ x, r = fun k => filtered (√2 / ω) ((w + w) / 2) d start stop N (fun i => rowAt y i k) := by
    intro r hr
    obtain ⟨j, hj, rfl⟩ := List.getElem_of_mem hr
    funext k
    have hx := hv j (by omega) k
    have e : rowAt x j = x[j] := by simp [rowAt, List.getElem?_eq_getElem hj]
    have e1 : rowAt (List.replicate N w) j = w := by simp [rowAt, show j < N by omega]
    have e2 : rowAt (List.replicate N w) (j + 1) = w := by simp [rowAt, show j + 1 < N by omega]
    rw [e, e1, e2] at hx
    exact hx
  intro r hr r' hr'
  rw [hall r hr, hall r' hr']

/-- **C143 violated**: `set_times` is to reject steps of different durations, but accepts durations 1, 2, 3, .... -/
theorem c143_violated_unequal (ω start stop : ℝ) (rate N : Nat) :
    ((GFilter.new ω rate start stop none).setTimes ((List.range (N + 2)).map fun k : Nat => (k : ℝ) + 1)).1 = none := by
  have hd : ∀ (M a : Nat), ∀ d ∈ npDiff ((List.range' a M).map fun k : Nat => (k : ℝ) + 1), d = 1 := by
    intro M
    induction M with
    | zero => simp [npDiff]
    | succ M ih =>
      intro a
      cases M with
      | zero => simp [npDiff]
      | succ M =>
        intro d hd
        simp only [List.range'_succ, List.map_cons, npDiff, List.mem_cons] at hd
        rcases hd with hd | hd
        · rw [hd]; push_cast; ring
        · exact ih (a + 1) d (by simpa only [List.range'_succ, List.map_cons] using hd)
  rw [List.range_eq_range']
  have := hd (N + 2) 0
  simp only [List.range'_succ, List.map_cons] at this ⊢
  unfold GFilter.setTimes
  dsimp only
  rw [if_pos]
  · rfl
  · intro d h
    rw [this d h]
    norm_num

/-- **C143 violated**: the contraction of `gradient_chain_rule` runs over the controls.  For the one control the class is made for, the
derivatives of an object with a transfer matrix for `N ≥ 2` steps have the shape (num_x, num_f, num_y) instead of (num_y, num_f, 1); for
more controls it returns None unless their number happens to fit. -/
theorem c143_violated_gradient (o o' : GFilter) (yt : List ℝ) (h2 : 2 ≤ yt.length) (ht : o.base.yTimes = some yt) (hn : o.base.numY = yt.length)
    (h : o.calculate = .ok o') :
    (∀ g : Grads ℝ f 1, ∃ r, o'.chain g = some r ∧ r.length = g.length ∧ ∀ row ∈ r, ∀ φ, (row φ).length = yt.length ∧ (row φ).length ≠ 1) ∧
      ∀ g : Grads ℝ f c, c ≠ 1 → c + 1 ≠ yt.length → yt.length ≠ 2 → o'.chain g = none := by
  obtain ⟨T, cte, hm, hx, hy⟩ : ∃ T cte, o'.matrix = some (T, cte) ∧ T.nx = yt.length - 1 ∧ T.ny = yt.length := by
    unfold GFilter.calculate at h
    split at h
    · cases h
    · rw [ht] at h
      match yt, h2 with
      | a :: b :: l, _ =>
        dsimp only at h
        split_ifs at h
        cases h
        exact ⟨_, _, rfl, midpoints_length _, hn⟩
    · cases h
  constructor
  · intro g
    simp only [GFilter.chain, hm]
    split_ifs
    all_goals
      refine ⟨_, rfl, by simp, fun row hrow φ => ?_⟩
      obtain ⟨q, -, rfl⟩ := List.mem_map.1 hrow
      simp only [List.length_map, List.length_range, hy, true_and]
      omega
  · intro g h1 h3 h4
    simp only [GFilter.chain, hm]
    rw [if_neg (by omega), if_neg h1, if_neg (by omega)]

theorem mem_npDiff {l : List ℝ} {d : ℝ} : d ∈ npDiff l ↔ ∃ i, i + 1 < l.length ∧ d = rowAt l (i + 1) - rowAt l i := by
  induction l with
  | nil => simp [npDiff]
  | cons a l ih =>
    cases l with
    | nil => simp [npDiff]
    | cons b l =>
      simp only [npDiff, List.mem_cons, ih]
      constructor
      · rintro (h | ⟨i, h1, h2⟩)
        · exact ⟨0, by simp, h⟩
        · exact ⟨i + 1, by simpa using h1, h2⟩
      · rintro ⟨i, h1, h2⟩
        cases i with
        | zero => exact Or.inl h2
        | succ i => exact Or.inr ⟨i, by simpa using h1, h2⟩

/-- **C143** (partial): of two or more numbers `set_times` rejects exactly those with distances which differ, by more than the tolerances of
`np.allclose`, from the first one.  Missing: that the numbers are durations, for which the distances are not the steps
(`c143_violated_unequal`). -/
theorem c143_spacing_partial (o : GFilter) (τ : List ℝ) (h2 : 2 ≤ τ.length) : (o.setTimes τ).1 = some .exception ↔
    ∃ i, i + 1 < τ.length ∧ 1 / 10 ^ 8 + 1 / 10 ^ 5 * |rowAt τ 1 - rowAt τ 0| < |(rowAt τ (i + 1) - rowAt τ i) - (rowAt τ 1 - rowAt τ 0)| := by
  match τ, h2 with
  | a :: b :: l, _ =>
    unfold GFilter.setTimes
    dsimp only
    split_ifs with hc
    · constructor
      · intro h
        cases hb : o.base.setTimes (a :: b :: l) with
        | error e =>
          rw [hb] at h
          exact absurd (Option.some.inj h) (setTimes_not_exception hb)
        | ok b' => rw [hb] at h; cases h
      · rintro ⟨i, h1, h3⟩
        exact absurd (hc _ (mem_npDiff.2 ⟨i, h1, rfl⟩)) (not_le.2 h3)
    · refine ⟨fun _ => ?_, fun _ => rfl⟩
      push Not at hc
      obtain ⟨d, hd, hlt⟩ := hc
      obtain ⟨i, h1, rfl⟩ := mem_npDiff.1 hd
      exact ⟨i, h1, hlt⟩

/-- **C143 violated**: an object which has computed its transfer matrix keeps it when other times are set, and the pulses which fit the
new times are answered with None. -/
theorem c143_violated_stale (o : GFilter) (T : Tensor ℝ 1) (cte : Nat → ℝ) (hm : o.matrix = some (T, cte)) (τ : List ℝ) :
    (o.setTimes τ).2.transferMatrix = .ok (some T, (o.setTimes τ).2) ∧
      ∀ y : Pulse ℝ c, y.length = τ.length → τ.length ≠ T.ny → T.ny ≠ 1 → τ.length ≠ 1 →
        (o.setTimes τ).2.call y = .ok (none, (o.setTimes τ).2) := by
  have h : (o.setTimes τ).2.matrix = some (T, cte) := by
    unfold GFilter.setTimes
    split
    · split_ifs
      · split <;> exact hm
      · exact hm
    · exact hm
  generalize (o.setTimes τ).2 = o' at h
  have hr : o'.ready = .ok o' := by simp [GFilter.ready, h]
  refine ⟨by simp [GFilter.transferMatrix, hr, h, bind, Except.bind, pure, Except.pure], fun y h1 h2 h3 h4 => ?_⟩
  have hT : (widen c T).apply y = .error .valueError := by
    unfold Tensor.apply
    rw [if_neg (by rw [h1]; exact h2), if_neg (by exact h3), if_neg (by rw [h1]; exact h4)]
  simp [GFilter.call, hr, h, hT, bind, Except.bind, pure, Except.pure]

/-- Cases of the theorems: steps of durations 1 and 3, filtered with `omega = 2`; and what becomes of steps of equal duration. -/
example : (∃ (x : Pulse ℝ 2) (o' : GFilter),
      { ((GFilter.new 2 5 0 1 none).setTimes [1, 3]).2 with xtimes := some (boundaries 2 2) }.call [![1, 0], ![1 / 2, 1]] = .ok (some x, o') ∧
        x.length = 1 ∧ ∀ r ∈ x, ∀ k, 0 ≤ r k ∧ r k ≤ 1) ∧
    (∃ (x : Pulse ℝ 1) (o' : GFilter),
      { ((GFilter.new 2 5 0 1 none).setTimes [1, 1, 1]).2 with xtimes := some (boundaries 3 1) }.call [![1], ![0], ![1]] = .ok (some x, o') ∧
        x.length = 2 ∧ ∀ r ∈ x, ∀ r' ∈ x, r = r') ∧
    (GFilter.step (c := 1) (f := 1) (GFilter.new 2 5 0 1 none) (.times [1, 1])).call (c := 1) [![1], ![0]] = .error .attributeError := by
  have h0 : ((GFilter.new 2 5 0 1 none).setTimes [1, 3]).1 ≠ some .exception := by
    unfold GFilter.setTimes
    dsimp only
    rw [if_pos (by norm_num [npDiff])]
    simp [GFilter.new, Base.setTimes, Base.init]
  refine ⟨?_, ?_, (c143_violated (f := 1) 2 0 1 5 none [.times [1, 1]] _ []).1⟩
  · obtain ⟨x, o', h, hl, hr⟩ := c143_range_partial (c := 2) 2 2 0 1 5 none (by norm_num) (by norm_num) [1, 3] (by simp) h0
      [![1, 0], ![1 / 2, 1]] rfl 0 1 (by norm_num) (by norm_num) (by
        intro r hr k
        simp only [List.mem_cons, List.not_mem_nil, or_false] at hr
        rcases hr with rfl | rfl <;> fin_cases k <;> norm_num)
    exact ⟨x, o', h, hl, hr⟩
  · obtain ⟨x, o', h, hl, hr⟩ := c143_violated_equal (c := 1) 2 1 0 1 1 5 none (by norm_num) 3 (by norm_num) [![1], ![0], ![1]] rfl
    exact ⟨x, o', h, hl, hr⟩

/-- A case of `c143_spacing_partial` beyond the tolerance and one within. -/
example (o : GFilter) : (o.setTimes [0, 1, 3]).1 = some .exception ∧ (o.setTimes [0, 1000, 2000 + 1 / 1000]).1 ≠ some .exception := by
  refine ⟨(c143_spacing_partial o _ (by simp)).2 ⟨1, by simp, ?_⟩, fun h => ?_⟩
  · norm_num [rowAt]
  · obtain ⟨i, h1, h2⟩ := (c143_spacing_partial o _ (by simp)).1 h
    have : i = 0 ∨ i = 1 := by simp at h1; omega
    rcases this with rfl | rfl <;> norm_num [rowAt] at h2

/-- A case of `c143_violated_stale`: from two steps to three. -/
example : ∃ o : GFilter, { ((GFilter.new 2 5 0 1 none).setTimes [1, 3]).2 with xtimes := some [0, 1, 2] }.transferMatrix = .ok (o.matrix.map Prod.fst, o) ∧
    (o.setTimes [1, 3, 5]).2.call (c := 1) [![1], ![0], ![1]] = .ok (none, (o.setTimes [1, 3, 5]).2) := by
  have h0 : ((GFilter.new 2 5 0 1 none).setTimes [1, 3]).1 ≠ some .exception := by
    unfold GFilter.setTimes
    dsimp only
    rw [if_pos (by norm_num [npDiff])]
    simp [GFilter.new, Base.setTimes, Base.init]
  obtain ⟨e1, e2, e3, -⟩ := setTimes_state (τ := [1, 3]) (by simp) h0
  generalize ((GFilter.new 2 5 0 1 none).setTimes [1, 3]).2 = o at *
  obtain ⟨o', T, cte, h, hm, hn⟩ : ∃ o' T cte, { o with xtimes := some [0, 1, 2] }.calculate = .ok o' ∧ o'.matrix = some (T, cte) ∧ T.ny = 2 := by
    simp only [GFilter.calculate, e1, e2]
    rw [if_neg (by simp [midpoints])]
    exact ⟨_, _, _, rfl, rfl, rfl⟩
  have e3 : o.matrix = none := e3
  refine ⟨o', ?_, (c143_violated_stale o' T cte hm [1, 3, 5]).2 _ rfl (by simp [hn]) (by simp [hn]) (by simp)⟩
  have hr : { o with xtimes := some [0, 1, 2] }.ready = .ok o' := by
    unfold GFilter.ready
    dsimp only
    rw [e3]
    rw [e3] at h
    exact h
  simp only [GFilter.transferMatrix, hr, bind, Except.bind, pure, Except.pure]

/-- A case of `c143_violated_gradient`. -/
example : ∃ o', { ((GFilter.new 2 5 0 1 none).setTimes [1, 3]).2 with xtimes := some [0, 1, 2] }.calculate = .ok o' ∧
    ∃ r, o'.chain ([fun _ _ => 1, fun _ _ => 2] : Grads ℝ 1 1) = some r ∧ ∀ row ∈ r, (row 0).length = 2 := by
  have h0 : ((GFilter.new 2 5 0 1 none).setTimes [1, 3]).1 ≠ some .exception := by
    unfold GFilter.setTimes
    dsimp only
    rw [if_pos (by norm_num [npDiff])]
    simp [GFilter.new, Base.setTimes, Base.init]
  obtain ⟨e1, e2, -⟩ := setTimes_state (τ := [1, 3]) (by simp) h0
  generalize ((GFilter.new 2 5 0 1 none).setTimes [1, 3]).2 = o at *
  obtain ⟨o', h⟩ : ∃ o', { o with xtimes := some [0, 1, 2] }.calculate = .ok o' := by
    simp only [GFilter.calculate, e1, e2]
    rw [if_neg (by simp [midpoints])]
    exact ⟨_, rfl⟩
  obtain ⟨r, hr, -, hl⟩ := (c143_violated_gradient (c := 1) _ o' [1, 3] (by simp) (by exact e1) (by exact e2) h).1
    ([fun _ _ => 1, fun _ _ => 2] : Grads ℝ 1 1)
  exact ⟨o', h, r, hr, fun row hrow => (hl row hrow 0).1⟩

end Verif.Transfer
