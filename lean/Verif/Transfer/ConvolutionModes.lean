import Verif.Transfer.Convolution

/-! # C13: the other border modes of the convolution transfer functions -/

namespace Verif.Transfer

section
variable {K : Type} [Field K]

/-- A filter whose extended signal reads every sample at most once per position is self-adjoint if the kernel is symmetric. -/
theorem symmetric_adjoint (h : Nat) (w : Nat → K) (hw : ∀ m ≤ 2 * h, w m = w (2 * h - m)) (mode : Border) (n : Nat)
    (hlt : ∀ z j, extIdx mode n z = some j → j < n)
    (hs : ∀ i j m : Nat, i < n → j < n → m ≤ 2 * h →
      (extIdx mode n ((i : Int) + h - m) = some j ↔ extIdx mode n ((j : Int) + h - (2 * h - m : Nat)) = some i)) :
    IsAdjoint n (gaussCall (2 * h + 1) w mode n) (gaussCall (2 * h + 1) w mode n) := by
  have hdiv : (2 * h + 1) / 2 = h := by omega
  -- the matrix of the filter
  set A : Nat → Nat → K := fun i j => ∑ m ∈ Finset.range (2 * h + 1), if extIdx mode n ((i : Int) + h - m) = some j then w m else 0 with hA
  have hval : ∀ (y : Nat → K) (i : Nat), gaussCall (2 * h + 1) w mode n y i = ∑ j ∈ Finset.range n, A i j * y j := by
    intro y i
    simp only [gaussCall, ndConvolve, hdiv, hA, Finset.sum_mul]
    rw [Finset.sum_comm]
    refine Finset.sum_congr rfl fun m _ => ?_
    cases he : extIdx mode n ((i : Int) + h - m) with
    | none => simp
    | some k =>
      have hk : k ∈ Finset.range n := Finset.mem_range.mpr (hlt _ _ he)
      rw [Finset.sum_eq_single_of_mem k hk]
      · simp
      · intro b _ hb
        rw [if_neg (by simpa using hb.symm), zero_mul]
  have hsym : ∀ i < n, ∀ j < n, A i j = A j i := by
    intro i hi j hj
    simp only [hA]
    rw [← Finset.sum_range_reflect]
    refine Finset.sum_congr rfl fun m hm => ?_
    have hm' : m ≤ 2 * h := by have := Finset.mem_range.mp hm; omega
    rw [show 2 * h + 1 - 1 - m = 2 * h - m by omega]
    have := hs j i m hj hi hm'
    rw [hw m hm']
    by_cases hc : extIdx mode n ((j : Int) + h - m) = some i
    · rw [if_pos hc, if_pos (this.mp hc)]
    · rw [if_neg hc, if_neg (fun h' => hc (this.mpr h'))]
  intro g y y'
  have e1 : ∀ i ∈ Finset.range n, g i * (gaussCall (2 * h + 1) w mode n y i - gaussCall (2 * h + 1) w mode n y' i)
      = ∑ j ∈ Finset.range n, g i * A i j * (y j - y' j) := by
    intro i _
    rw [hval, hval, ← Finset.sum_sub_distrib, Finset.mul_sum]
    exact Finset.sum_congr rfl fun j _ => by ring
  have e2 : ∀ j ∈ Finset.range n, gaussCall (2 * h + 1) w mode n g j * (y j - y' j)
      = ∑ i ∈ Finset.range n, g i * A i j * (y j - y' j) := by
    intro j hj
    rw [hval, Finset.sum_mul]
    refine Finset.sum_congr rfl fun i hi => ?_
    rw [hsym j (Finset.mem_range.mp hj) i (Finset.mem_range.mp hi)]
    ring
  rw [Finset.sum_congr rfl e1, Finset.sum_congr rfl e2, Finset.sum_comm]

/-- **C13 (partial)** `GaussianConvolution` with mode `constant` (scipy's default value 0) and a symmetric kernel (even order). -/
theorem c13_gaussian_constant_partial (h : Nat) (w : Nat → K) (hw : ∀ m ≤ 2 * h, w m = w (2 * h - m)) (n : Nat) :
    IsAdjoint n (gaussCall (2 * h + 1) w .constant n) (gaussCall (2 * h + 1) w .constant n) := by
  refine symmetric_adjoint h w hw .constant n ?_ ?_
  · intro z j hj
    simp only [extIdx] at hj
    split at hj
    · cases hj; omega
    · cases hj
  · intro i j m hi hj hm
    simp only [extIdx]
    constructor
    · intro he
      split at he
      · simp only [Option.some.injEq] at he
        rw [if_pos (by omega)]
        simp only [Option.some.injEq]
        omega
      · cases he
    · intro he
      split at he
      · simp only [Option.some.injEq] at he
        rw [if_pos (by omega)]
        simp only [Option.some.injEq]
        omega
      · cases he

theorem emod_iff (n : Nat) (z : Int) (j : Nat) (hj : j < n) : (z % n).toNat = j ↔ (n : Int) ∣ z - j := by
  have hn : (0 : Int) < n := by omega
  have h0 := Int.emod_nonneg z (ne_of_gt hn)
  have h1 := Int.emod_lt_of_pos z hn
  constructor
  · intro h
    have : z % n = j := by omega
    exact ⟨z / n, by have := Int.emod_add_mul_ediv z n; omega⟩
  · intro h
    have : z % n = (j : Int) % n := Int.emod_eq_emod_iff_emod_sub_eq_zero.mpr (Int.emod_eq_zero_of_dvd h)
    rw [this, Int.emod_eq_of_lt (by omega) (by omega)]
    simp

/-- **C13 (partial)** `GaussianConvolution` with mode `wrap` and a symmetric kernel (even order). -/
theorem c13_gaussian_wrap_partial (h : Nat) (w : Nat → K) (hw : ∀ m ≤ 2 * h, w m = w (2 * h - m)) (n : Nat) :
    IsAdjoint n (gaussCall (2 * h + 1) w .wrap n) (gaussCall (2 * h + 1) w .wrap n) := by
  by_cases hn : n = 0
  · subst hn
    intro g y y'
    simp
  refine symmetric_adjoint h w hw .wrap n ?_ ?_
  · intro z j hj
    simp only [extIdx, Option.some.injEq] at hj
    have h1 := Int.emod_lt_of_pos z (show (0 : Int) < n by omega)
    have h0 := Int.emod_nonneg z (show (n : Int) ≠ 0 by omega)
    omega
  · intro i j m hi hj hm
    simp only [extIdx, Option.some.injEq]
    rw [emod_iff n _ j hj, emod_iff n _ i hi]
    have : (j : Int) + h - ((2 * h - m : Nat) : Int) - i = -((i : Int) + h - m - j) := by
      rw [Nat.cast_sub hm]; push_cast; ring
    rw [this, dvd_neg]

/-- **C13 violated** for `GaussianConvolution` with mode `mirror`: any kernel of radius 1 with a non-zero outer weight, on three steps. -/
theorem c13_violated_mirror (w : Nat → K) (hb : w 0 ≠ 0) (hs : w 2 = w 0) :
    ¬ IsAdjoint 3 (gaussCall 3 w .mirror 3) (gaussCall 3 w .mirror 3) := by
  intro hadj
  have := adjoint_entry hadj 0 1 (by norm_num) (by norm_num)
  simp [gaussCall, ndConvolve, extIdx, Finset.sum_range_succ, hs] at this
  exact hb this

/-- **C13 violated** for odd orders of `GaussianConvolution`: the kernel of a derivative is antisymmetric, and the gradient is not
the adjoint in any border mode (three steps, kernels of radius 1). -/
theorem c13_violated_odd (w : Nat → K) (h0 : w 0 + w 0 ≠ 0) (h1 : w 1 = 0) (hs : w 2 = -w 0) (mode : Border) :
    ¬ IsAdjoint 3 (gaussCall 3 w mode 3) (gaussCall 3 w mode 3) := by
  intro hadj
  have hb : w 0 ≠ 0 := by intro h; simp [h] at h0
  cases mode with
  | mirror =>
    have := adjoint_entry hadj 0 1 (by norm_num) (by norm_num)
    simp [gaussCall, ndConvolve, extIdx, Finset.sum_range_succ, hs] at this
    exact hb this
  | _ =>
    have := adjoint_entry hadj 0 1 (by norm_num) (by norm_num)
    simp [gaussCall, ndConvolve, extIdx, Finset.sum_range_succ, hs, h1] at this
    exact h0 (by linear_combination this)

/-- **C13 violated** for `ConvolutionTF` with the modes `constant`, `wrap` and `mirror`: a symmetric kernel of radius 1 with non-zero
outer weight, on three steps; the gradient reflects at the border. -/
theorem c13_violated_modes (w : Nat → K) (hb : w 0 ≠ 0) (hs : w 2 = w 0) (mode : Border)
    (hm : mode = .constant ∨ mode = .wrap ∨ mode = .mirror) (cval : K) :
    ¬ IsAdjoint 3 (convCall 3 w mode cval 3) (convGrad 3 w cval 3) := by
  intro hadj
  rcases hm with rfl | rfl | rfl
  · have := adjoint_entry hadj 0 0 (by norm_num) (by norm_num)
    simp [convCall, convGrad, ndConvolve, extIdx, Finset.sum_range_succ, hs] at this
    exact hb this
  · have := adjoint_entry hadj 0 0 (by norm_num) (by norm_num)
    simp [convCall, convGrad, ndConvolve, extIdx, Finset.sum_range_succ, hs] at this
    exact hb this
  · have := adjoint_entry hadj 0 0 (by norm_num) (by norm_num)
    simp [convCall, convGrad, ndConvolve, extIdx, Finset.sum_range_succ, hs] at this
    exact hb this

/-- The hypotheses are met by the kernels `[1, 2, 1]` and `[1, 0, -1]`. -/
example : ¬ IsAdjoint 3 (convCall 3 (fun m => if m = 1 then (2 : ℚ) else 1) .constant 5 3) (convGrad 3 (fun m => if m = 1 then 2 else 1) 5 3) ∧
    ¬ IsAdjoint 3 (gaussCall 3 (fun m => if m = 1 then (0 : ℚ) else if m = 0 then 1 else -1) .nearest 3)
      (gaussCall 3 (fun m => if m = 1 then 0 else if m = 0 then 1 else -1) .nearest 3) ∧
    IsAdjoint 4 (gaussCall 3 (fun m => if m = 1 then (2 : ℚ) else 1) .wrap 4) (gaussCall 3 (fun m => if m = 1 then 2 else 1) .wrap 4) :=
  ⟨c13_violated_modes _ (by norm_num) (by norm_num) _ (Or.inl rfl) 5, c13_violated_odd _ (by norm_num) (by norm_num) (by norm_num) _,
    c13_gaussian_wrap_partial 1 _ (by
      intro m hm
      have : m = 0 ∨ m = 1 ∨ m = 2 := by omega
      rcases this with rfl | rfl | rfl <;> norm_num) 4⟩

end

/-- The extension of a signal of length `n` beyond its borders, as documented for `scipy.ndimage`: inside the signal itself, outside a
constant, the nearest value, the periodic continuation, the reflection about the edge of the border pixel (`reflect`), or the reflection
about its centre (`mirror`).  The equations of each mode determine the extension (of two
or more samples). -/
def Extends (mode : Border) (n : Nat) (e : Int → Option Nat) : Prop :=
  (∀ j : Nat, j < n → e j = some j) ∧
  match mode with
  | .constant => ∀ z : Int, (z < 0 ∨ n ≤ z) → e z = none
  | .nearest => (∀ z : Int, z < 0 → e z = some 0) ∧ ∀ z : Int, n ≤ z → e z = some (n - 1)
  | .wrap => ∀ z : Int, e (z + n) = e z
  | .reflect => ∀ z : Int, e (-1 - z) = e z ∧ e (2 * n - 1 - z) = e z
  | .mirror => ∀ z : Int, e (-z) = e z ∧ e (2 * (n - 1) - z) = e z

theorem reflect_mod (r m : Int) (z : Int) (hr : r = z % m) (c : Int) : (c - z) % m = (c - r) % m := by
  subst hr
  rw [Int.sub_emod, Int.sub_emod c (z % m), Int.emod_emod_of_dvd _ (dvd_refl m)]

/-- **C13 (partial)** The border modes read the extension which they are documented to read. -/
theorem c13_extension_partial (mode : Border) (n : Nat) (hn : 0 < n) : Extends mode n (extIdx mode n) := by
  cases mode with
  | constant =>
    refine ⟨fun j hj => ?_, fun z hz => ?_⟩
    · simp [extIdx, hj]
    · simp only [extIdx]; rw [if_neg (by omega)]
  | nearest =>
    refine ⟨fun j hj => ?_, fun z hz => ?_, fun z hz => ?_⟩ <;> simp only [extIdx, Option.some.injEq] <;> omega
  | wrap =>
    refine ⟨fun j hj => ?_, fun z => ?_⟩
    · simp only [extIdx, Option.some.injEq]; rw [Int.emod_eq_of_lt (by omega) (by omega)]; simp
    · simp only [extIdx]; rw [Int.add_emod_right]
  | reflect =>
    have key : ∀ z : Int, (-1 - z) % (2 * (n : Int)) = 2 * n - 1 - z % (2 * n) := by
      intro z
      have h0 := Int.emod_nonneg z (show (2 * n : Int) ≠ 0 by omega)
      have h1 := Int.emod_lt_of_pos z (show (0 : Int) < 2 * n by omega)
      rw [reflect_mod _ _ z rfl, ← Int.add_emod_right, Int.emod_eq_of_lt (by omega) (by omega)]; ring
    have key2 : ∀ z : Int, (2 * n - 1 - z) % (2 * (n : Int)) = 2 * n - 1 - z % (2 * n) := by
      intro z
      rw [← key z, show (2 * n - 1 - z : Int) = -1 - z + 2 * n by ring, Int.add_emod_right]
    refine ⟨fun j hj => ?_, fun z => ⟨?_, ?_⟩⟩
    · simp only [extIdx, Option.some.injEq]; rw [Int.emod_eq_of_lt (by omega) (by omega), if_pos (by omega)]; simp
    · have h0 := Int.emod_nonneg z (show (2 * n : Int) ≠ 0 by omega)
      have h1 := Int.emod_lt_of_pos z (show (0 : Int) < 2 * n by omega)
      simp only [extIdx, Option.some.injEq]; rw [key]
      split <;> split <;> omega
    · have h0 := Int.emod_nonneg z (show (2 * n : Int) ≠ 0 by omega)
      have h1 := Int.emod_lt_of_pos z (show (0 : Int) < 2 * n by omega)
      simp only [extIdx, Option.some.injEq]; rw [key2]
      split <;> split <;> omega
  | mirror =>
    by_cases h1 : n = 1
    · subst h1
      refine ⟨fun j hj => ?_, fun z => ⟨?_, ?_⟩⟩ <;> simp [extIdx]
      omega
    have hp : (0 : Int) < 2 * ((n : Int) - 1) := by omega
    have key : ∀ z : Int, (-z) % (2 * ((n : Int) - 1)) =
        if z % (2 * ((n : Int) - 1)) = 0 then 0 else 2 * ((n : Int) - 1) - z % (2 * ((n : Int) - 1)) := by
      intro z
      have h0 := Int.emod_nonneg z hp.ne'
      have h1 := Int.emod_lt_of_pos z hp
      rw [← zero_sub, reflect_mod _ _ z rfl]
      split
      · rename_i h; rw [h]; simp
      · rw [← Int.add_emod_right, Int.emod_eq_of_lt (by omega) (by omega)]; ring
    have key2 : ∀ z : Int, (2 * ((n : Int) - 1) - z) % (2 * ((n : Int) - 1)) =
        if z % (2 * ((n : Int) - 1)) = 0 then 0 else 2 * ((n : Int) - 1) - z % (2 * ((n : Int) - 1)) := by
      intro z
      rw [← key z, show (2 * ((n : Int) - 1) - z : Int) = -z + 2 * ((n : Int) - 1) by ring, Int.add_emod_right]
    refine ⟨fun j hj => ?_, fun z => ⟨?_, ?_⟩⟩
    · simp only [extIdx, if_neg h1, Option.some.injEq]
      by_cases hl : (j : Int) < 2 * ((n : Int) - 1)
      · rw [Int.emod_eq_of_lt (by omega) hl, if_pos (by omega)]; simp
      · omega
    · have h0 := Int.emod_nonneg z hp.ne'
      have h2 := Int.emod_lt_of_pos z hp
      simp only [extIdx, if_neg h1, Option.some.injEq]; rw [key]
      split <;> split <;> split <;> omega
    · have h0 := Int.emod_nonneg z hp.ne'
      have h2 := Int.emod_lt_of_pos z hp
      simp only [extIdx, if_neg h1, Option.some.injEq]; rw [key2]
      split <;> split <;> split <;> omega

/-- Before the first of four samples: `mirror` reads the second one, `reflect` the first one, `wrap` the last one. -/
example : extIdx .mirror 4 (-1) = some 1 ∧ extIdx .reflect 4 (-1) = some 0 ∧ extIdx .wrap 4 (-1) = some 3 :=
  ⟨((c13_extension_partial .mirror 4 (by norm_num)).2 1).1.trans ((c13_extension_partial .mirror 4 (by norm_num)).1 1 (by norm_num)),
    ((c13_extension_partial .reflect 4 (by norm_num)).2 0).1.trans ((c13_extension_partial .reflect 4 (by norm_num)).1 0 (by norm_num)),
    ((c13_extension_partial .wrap 4 (by norm_num)).2 (-1)).symm.trans ((c13_extension_partial .wrap 4 (by norm_num)).1 3 (by norm_num))⟩

end Verif.Transfer
