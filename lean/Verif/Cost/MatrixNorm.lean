import Verif.Cost.Angle

/-!
# `OperatorMatrixNorm` (cost_functions.py:224-322)

The final propagator is a value; the gradient (cost_functions.py:324-402) is modelled in Cost/NormGrad.
-/

namespace Verif.Cost
open Verif Verif.Operator Matrix

/-- The argument `mode`. -/
inductive NormMode where
  | scalar | vector | rotationAxis | other
  deriving DecidableEq

/-- `CostFunction.__init__`, cost_functions.py:126-132, by the number of positional arguments. -/
def baseInit {S : Type} (args : List S) : Except PyErr S :=
  match args with
  | [s] => .ok s
  | _ => .error .typeError

/-- The labels of the components, cost_functions.py:267-281. -/
def normLabels (d : Nat) : NormMode → Except PyErr (List String)
  | .scalar => .ok ["Matrix Norm Distance"]
  | .vector =>
    let ix := (List.range d).flatMap fun i => (List.range d).map fun j => toString (i + 1) ++ toString (j + 1)
    .ok (ix.map ("redu" ++ ·) ++ ix.map ("imdu" ++ ·))
  | .rotationAxis => .ok ["n1 * phi", "n2", "n3"]
  | .other => .error .valueError

/-- `OperatorMatrixNorm.__init__`, cost_functions.py:260-284: the base class is initialised without the solver. -/
def normInit {S : Type} (solver : S) (d : Nat) (mode : NormMode) (label : Option (List String)) : Except PyErr (S × List String) :=
  match baseInit ([] : List S) with
  | .error e => .error e
  | .ok _ => match label with
    | some l => .ok (solver, l)
    | none => match normLabels d mode with
      | .ok l => .ok (solver, l)
      | .error e => .error e

section
variable {d : Nat}

/-- The entries in the order of `flatten`. -/
def flat (A : Matrix (Fin (d + 1)) (Fin (d + 1)) ℂ) : List ℂ := (List.finRange (d + 1)).flatMap fun i => (List.finRange (d + 1)).map fun j => A i j

open scoped Classical in
/-- `diff`, cost_functions.py:309-314: the difference to the target after the phase of the first entry is removed. -/
noncomputable def phaseDiff (target final : Matrix (Fin (d + 1)) (Fin (d + 1)) ℂ) : Except PyErr (Matrix (Fin (d + 1)) (Fin (d + 1)) ℂ) :=
  -- `np.isclose(final.data[0, 0], 0)`
  if ‖final 0 0‖ ≤ 1 / 100000000 then .error .notImplementedError
  else .ok ((1 / (final 0 0 / (‖final 0 0‖ : ℂ))) • final - target)

/-- `OperatorMatrixNorm.costs` in the modes 'scalar' (one number) and 'vector', cost_functions.py:300-322. -/
noncomputable def normCosts (vector : Bool) (target final : Matrix (Fin (d + 1)) (Fin (d + 1)) ℂ) : Except PyErr (List ℝ) :=
  match phaseDiff target final with
  | .error e => .error e
  | .ok D => if vector then .ok ((flat D).map Complex.re ++ (flat D).map Complex.im) else .ok [((flat D).map fun z => ‖z‖).sum]

/-! ## C89 -/

theorem mem_flat {A : Matrix (Fin (d + 1)) (Fin (d + 1)) ℂ} (i j : Fin (d + 1)) : A i j ∈ flat A := by
  simp only [flat, List.mem_flatMap, List.mem_map, List.mem_finRange, true_and]
  exact ⟨i, j, rfl⟩

theorem flat_zero (A : Matrix (Fin (d + 1)) (Fin (d + 1)) ℂ) : (∀ z ∈ flat A, z = 0) ↔ A = 0 := by
  constructor
  · intro h
    ext i j
    exact h _ (mem_flat i j)
  · rintro rfl z hz
    simp only [flat, List.mem_flatMap, List.mem_map] at hz
    obtain ⟨i, -, j, -, rfl⟩ := hz
    rfl

theorem sum_norm_zero (l : List ℂ) : (l.map fun z => ‖z‖).sum = 0 ↔ ∀ z ∈ l, z = 0 := by
  induction l with
  | nil => simp
  | cons a l ih =>
    have h1 : 0 ≤ (l.map fun z => ‖z‖).sum := List.sum_nonneg (by simp)
    have h2 := norm_nonneg a
    rw [List.map_cons, List.sum_cons]
    simp only [List.mem_cons, forall_eq_or_imp]
    rw [← ih, ← norm_eq_zero (a := a)]
    constructor
    · intro h; constructor <;> linarith
    · rintro ⟨h, h'⟩; linarith

/-- The costs vanish, in either mode, exactly if the difference does. -/
theorem normCosts_zero (v : Bool) (target final : Matrix (Fin (d + 1)) (Fin (d + 1)) ℂ) (h : ¬ ‖final 0 0‖ ≤ 1 / 100000000) :
    (∃ c, normCosts v target final = .ok c ∧ ∀ x ∈ c, x = 0) ↔ (1 / (final 0 0 / (‖final 0 0‖ : ℂ))) • final = target := by
  unfold normCosts phaseDiff
  rw [if_neg h]
  simp only
  rw [← sub_eq_zero (a := (1 / (final 0 0 / (‖final 0 0‖ : ℂ))) • final), ← flat_zero]
  cases v with
  | false =>
    simp only [Bool.false_eq_true, if_false, Except.ok.injEq, exists_eq_left', List.mem_singleton, forall_eq]
    exact sum_norm_zero _
  | true =>
    simp only [if_true, Except.ok.injEq, exists_eq_left', List.mem_append, List.mem_map]
    constructor
    · intro h z hz
      exact Complex.ext (h _ (Or.inl ⟨z, hz, rfl⟩)) (h _ (Or.inr ⟨z, hz, rfl⟩))
    · rintro h x (⟨z, hz, rfl⟩ | ⟨z, hz, rfl⟩) <;> simp [h z hz]

/-- **C89** (global phase): the costs do not depend on a global phase of the evolution. -/
theorem c89_phase (v : Bool) (target final : Matrix (Fin (d + 1)) (Fin (d + 1)) ℂ) (z : ℂ) (hz : ‖z‖ = 1) :
    normCosts v target (z • final) = normCosts v target final := by
  have h : phaseDiff target (z • final) = phaseDiff target final := by
    unfold phaseDiff
    have hn : ‖(z • final) 0 0‖ = ‖final 0 0‖ := by rw [Matrix.smul_apply, smul_eq_mul, norm_mul, hz, one_mul]
    rw [hn]
    split
    · rfl
    · congr 2
      have hz0 : z ≠ 0 := by intro h; simp [h] at hz
      rw [smul_smul, Matrix.smul_apply, smul_eq_mul]
      congr 1
      field_simp
  unfold normCosts
  rw [h]

/-- **C89** (partial): for a target whose first entry is positive the costs vanish exactly for the evolutions which agree with the target up to
a global phase.  Missing: other targets (`c89_violated_target`, `c89_violated_first_entry`). -/
theorem c89_zero_partial (v : Bool) (target final : Matrix (Fin (d + 1)) (Fin (d + 1)) ℂ) (r : ℝ) (hr : 0 < r) (ht : target 0 0 = r)
    (hf : ¬ ‖final 0 0‖ ≤ 1 / 100000000) :
    (∃ c, normCosts v target final = .ok c ∧ ∀ x ∈ c, x = 0) ↔ ∃ z : ℂ, ‖z‖ = 1 ∧ final = z • target := by
  rw [normCosts_zero v target final hf]
  have hn : 0 < ‖final 0 0‖ := by
    have : (0 : ℝ) < 1 / 100000000 := by norm_num
    linarith [not_le.mp hf]
  have h0 : final 0 0 ≠ 0 := norm_pos_iff.mp hn
  have hn' : (‖final 0 0‖ : ℂ) ≠ 0 := by exact_mod_cast hn.ne'
  constructor
  · intro h
    refine ⟨final 0 0 / (‖final 0 0‖ : ℂ), ?_, ?_⟩
    · rw [norm_div, Complex.norm_real, norm_norm, div_self hn.ne']
    · rw [← h, smul_smul, mul_one_div_cancel (div_ne_zero h0 hn'), one_smul]
  · rintro ⟨z, hz, rfl⟩
    have hz0 : z ≠ 0 := by intro h; simp [h] at hz
    have e : (z • target) 0 0 = z * r := by rw [Matrix.smul_apply, smul_eq_mul, ht]
    have e2 : ‖z * (r : ℂ)‖ = r := by rw [norm_mul, hz, one_mul, Complex.norm_real, Real.norm_of_nonneg hr.le]
    have hr0 : (r : ℂ) ≠ 0 := by exact_mod_cast hr.ne'
    rw [e, e2, smul_smul, mul_div_assoc, div_self hr0, mul_one, one_div_mul_cancel hz0, one_smul]

/-- **C89** (partial): one cost per label. -/
theorem c89_labels_partial (target final : Matrix (Fin (d + 1)) (Fin (d + 1)) ℂ) (v : Bool) (c : List ℝ) (l : List String)
    (hc : normCosts v target final = .ok c) (hl : normLabels (d + 1) (if v then .vector else .scalar) = .ok l) : c.length = l.length := by
  have hflat : ∀ A : Matrix (Fin (d + 1)) (Fin (d + 1)) ℂ, (flat A).length = (d + 1) * (d + 1) := by
    intro A
    simp [flat, List.length_flatMap]
  unfold normCosts at hc
  cases hp : phaseDiff target final with
  | error e => rw [hp] at hc; cases hc
  | ok D =>
    rw [hp] at hc
    cases v with
    | false =>
      simp only [Bool.false_eq_true, if_false, Except.ok.injEq, normLabels] at hc hl
      rw [← hc, ← hl]
      rfl
    | true =>
      simp only [if_true, Except.ok.injEq, normLabels] at hc hl
      rw [← hc, ← hl]
      simp [hflat, List.length_flatMap]

/-- Entry `i * k + j` of a list of rows of length `k`. -/
theorem getElem?_rows {α : Type} (f : Nat → Nat → α) (k m : Nat) {i j : Nat} (hi : i < m) (hj : j < k) :
    ((List.range m).flatMap fun a => (List.range k).map (f a))[i * k + j]? = some (f i j) := by
  induction m with
  | zero => omega
  | succ m ih =>
    have hl : ((List.range m).flatMap fun a => (List.range k).map (f a)).length = m * k := by simp [List.length_flatMap]
    rw [List.range_succ, List.flatMap_append, List.flatMap_singleton]
    rcases Nat.lt_succ_iff_lt_or_eq.mp hi with h | rfl
    · rw [List.getElem?_append_left, ih h]
      rw [hl]
      nlinarith
    · rw [List.getElem?_append_right (by rw [hl]; omega), hl, Nat.add_sub_cancel_left]
      simp [hj]

theorem flat_eq (A : Matrix (Fin (d + 1)) (Fin (d + 1)) ℂ) (f : Nat → Nat → ℂ) (h : ∀ i j : Fin (d + 1), f i j = A i j) :
    flat A = (List.range (d + 1)).flatMap fun a => (List.range (d + 1)).map (f a) := by
  unfold flat
  rw [List.flatMap, List.flatMap, ← List.map_coe_finRange_eq_range, List.map_map]
  congr 1
  refine List.map_congr_left fun i _ => ?_
  simp only [Function.comp, List.map_map]
  refine List.map_congr_left fun j _ => ?_
  exact (h i j).symm

/-- **C89** (partial): in the mode 'vector' every cost stands at the place of its label: the real part of the entry in row `i + 1` and column
`j + 1` of the difference at "redu" followed by these numbers, the imaginary part at "imdu". -/
theorem c89_label_places_partial (target final : Matrix (Fin (d + 1)) (Fin (d + 1)) ℂ) (c : List ℝ) (l : List String)
    (hc : normCosts true target final = .ok c) (hl : normLabels (d + 1) .vector = .ok l) (i j : Fin (d + 1)) :
    ∃ a b : Nat, l[a]? = some ("redu" ++ (toString (i.val + 1) ++ toString (j.val + 1))) ∧
      l[b]? = some ("imdu" ++ (toString (i.val + 1) ++ toString (j.val + 1))) ∧
      c[a]? = some ((1 / (final 0 0 / (‖final 0 0‖ : ℂ))) * final i j - target i j).re ∧
      c[b]? = some ((1 / (final 0 0 / (‖final 0 0‖ : ℂ))) * final i j - target i j).im := by
  unfold normCosts phaseDiff at hc
  by_cases h : ‖final 0 0‖ ≤ 1 / 100000000
  · rw [if_pos h] at hc
    cases hc
  rw [if_neg h] at hc
  simp only [if_true, Except.ok.injEq] at hc
  set D := (1 / (final 0 0 / (‖final 0 0‖ : ℂ))) • final - target with hD
  have hij : (1 / (final 0 0 / (‖final 0 0‖ : ℂ))) * final i j - target i j = D i j := rfl
  simp only [normLabels, Except.ok.injEq] at hl
  have hf := flat_eq D (fun a b => if h : a < d + 1 ∧ b < d + 1 then D ⟨a, h.1⟩ ⟨b, h.2⟩ else 0) (fun i j => dif_pos ⟨i.2, j.2⟩)
  have e1 : (flat D)[i.val * (d + 1) + j.val]? = some (D i j) := by
    rw [hf, getElem?_rows _ _ _ i.2 j.2]
    exact congrArg some (dif_pos ⟨i.2, j.2⟩)
  have e2 := getElem?_rows (fun a b => toString (a + 1) ++ toString (b + 1)) (d + 1) (d + 1) i.2 j.2
  set ix := (List.range (d + 1)).flatMap fun i => (List.range (d + 1)).map fun j => toString (i + 1) ++ toString (j + 1) with hix
  have k1 : (flat D).length = (d + 1) * (d + 1) := by simp [flat, List.length_flatMap]
  have k2 : ix.length = (d + 1) * (d + 1) := by simp [hix, List.length_flatMap]
  have hlt : i.val * (d + 1) + j.val < (d + 1) * (d + 1) := by nlinarith [i.2, j.2]
  refine ⟨i.val * (d + 1) + j.val, (d + 1) * (d + 1) + (i.val * (d + 1) + j.val), ?_, ?_, ?_, ?_⟩
  · rw [← hl, List.getElem?_append_left (by rw [List.length_map, k2]; exact hlt), List.getElem?_map, e2]
    rfl
  · rw [← hl, List.getElem?_append_right (by rw [List.length_map, k2]; omega), List.length_map, k2, Nat.add_sub_cancel_left,
      List.getElem?_map, e2]
    rfl
  · rw [← hc, List.getElem?_append_left (by rw [List.length_map, k1]; exact hlt), List.getElem?_map, e1, hij]
    rfl
  · rw [← hc, List.getElem?_append_right (by rw [List.length_map, k1]; omega), List.length_map, k1, Nat.add_sub_cancel_left,
      List.getElem?_map, e1, hij]
    rfl

/-- **C89** (violated): if the first entry of the target is not a positive number, the perfect evolution has positive costs. -/
theorem c89_violated_target (v : Bool) (target : Matrix (Fin (d + 1)) (Fin (d + 1)) ℂ) (h : ¬ ‖target 0 0‖ ≤ 1 / 100000000)
    (ht : ¬ ∃ r : ℝ, 0 < r ∧ target 0 0 = r) : ¬ ∃ c, normCosts v target target = .ok c ∧ ∀ x ∈ c, x = 0 := by
  rw [normCosts_zero v target target h]
  intro e
  have hn : 0 < ‖target 0 0‖ := by
    have : (0 : ℝ) < 1 / 100000000 := by norm_num
    linarith [not_le.mp h]
  refine ht ⟨_, hn, ?_⟩
  have h0 : target 0 0 ≠ 0 := norm_pos_iff.mp hn
  have := congrFun (congrFun e 0) 0
  rw [Matrix.smul_apply, smul_eq_mul, one_div_div, div_mul_cancel₀ _ h0] at this
  exact this.symm

/-- **C89** (violated): evolutions with vanishing first entry have no costs, whether or not they agree with the target. -/
theorem c89_violated_first_entry (v : Bool) (target final : Matrix (Fin (d + 1)) (Fin (d + 1)) ℂ) (h : ‖final 0 0‖ ≤ 1 / 100000000) :
    normCosts v target final = .error .notImplementedError := by
  unfold normCosts phaseDiff
  rw [if_pos h]

/-- **C89** (violated): no object of the class can be created. -/
theorem c89_violated_constructor {S : Type} (solver : S) (mode : NormMode) (label : Option (List String)) :
    normInit solver (d + 1) mode label = .error .typeError := rfl

end

/-- Examples: the identity gate with a global phase, `-1`, and the bit flip. -/
example : ∃ c, normCosts false (1 : Matrix (Fin 2) (Fin 2) ℂ) (Complex.I • 1) = .ok c ∧ ∀ x ∈ c, x = 0 := by
  refine (c89_zero_partial false 1 (Complex.I • 1) 1 one_pos (by simp) ?_).mpr ⟨Complex.I, by simp, rfl⟩
  simp only [Matrix.smul_apply, Matrix.one_apply_eq, smul_eq_mul, mul_one, Complex.norm_I]
  norm_num

example : ¬ ∃ c, normCosts true (-1 : Matrix (Fin 2) (Fin 2) ℂ) (-1) = .ok c ∧ ∀ x ∈ c, x = 0 := by
  refine c89_violated_target true _ ?_ ?_
  · simp only [Matrix.neg_apply, Matrix.one_apply_eq, norm_neg, norm_one]; norm_num
  · rintro ⟨r, hr, h⟩
    simp only [Matrix.neg_apply, Matrix.one_apply_eq] at h
    have := congrArg Complex.re h
    simp at this
    linarith

example : normCosts false (!![0, 1; 1, 0] : Matrix (Fin 2) (Fin 2) ℂ) !![0, 1; 1, 0] = .error .notImplementedError :=
  c89_violated_first_entry false _ _ (by simp)

example : ∃ (c : List ℝ) (l : List String) (a : Nat), normCosts true (1 : Matrix (Fin 2) (Fin 2) ℂ) !![1, 2; 3, 4] = .ok c ∧
    normLabels 2 .vector = .ok l ∧ l[a]? = some "imdu21" := by
  have h : ¬ ‖(!![1, 2; 3, 4] : Matrix (Fin 2) (Fin 2) ℂ) 0 0‖ ≤ 1 / 100000000 := by simp; norm_num
  obtain ⟨a, b, -, e, -⟩ := c89_label_places_partial (d := 1) 1 (!![1, 2; 3, 4] : Matrix (Fin 2) (Fin 2) ℂ) _ _
    (by unfold normCosts phaseDiff; rw [if_neg h]; rfl) rfl 1 0
  exact ⟨_, _, b, by unfold normCosts phaseDiff; rw [if_neg h]; rfl, rfl, e⟩

end Verif.Cost
