import Mathlib.Algebra.BigOperators.Ring.Finset
import Mathlib.Algebra.BigOperators.Intervals
import Mathlib.Algebra.Field.Rat
import Mathlib.Tactic.Ring
import Mathlib.Tactic.NormNum
import Mathlib.Tactic.Linarith
import Mathlib.Tactic.LinearCombination

/-! # C13: the convolution transfer functions

Model of `ConvolutionTF` (transfer_function.py:690-777) and of the filter step of `GaussianConvolution`
(transfer_function.py:780-905) for one dimensional kernels: the kernel is expanded to shape `(s, 1)` (call)
and `(s, 1, 1)` (gradient), so every column (and every cost) is filtered separately along the time axis and
one column is enough.  A column of length `n` is a function `Nat → K` of which the first `n` values are
used.  `scipy.ndimage.convolve` is modelled by its documented formula. -/

namespace Verif.Transfer

/-- Border modes of `scipy.ndimage`. -/
inductive Border where
  | reflect
  | constant
  | nearest
  | mirror
  | wrap
  deriving DecidableEq, Repr

/-- Index read by `scipy.ndimage` at position `z` of the extended signal of length `n`; `none` means the
constant `cval`.  `reflect`: `(d c b a | a b c d | d c b a)`, `mirror`: `(d c b | a b c d | c b a)`,
`nearest`: `(a a a a | a b c d | d d d d)`, `wrap`: `(a b c d | a b c d | a b c d)`. -/
def extIdx (mode : Border) (n : Nat) (z : Int) : Option Nat :=
  match mode with
  | .constant => if 0 ≤ z ∧ z < n then some z.toNat else none
  | .nearest => some (min (max z 0) (n - 1)).toNat
  | .wrap => some (z % n).toNat
  | .reflect =>
    let r := z % (2 * n)
    some (if r < n then r else 2 * n - 1 - r).toNat
  | .mirror =>
    if n = 1 then some 0
    else
      let r := z % (2 * (n - 1))
      some (if r < n then r else 2 * (n - 1) - r).toNat

section
variable {K : Type} [Field K]

/-- `scipy.ndimage.convolve` along one axis: `out[i] = ∑ₘ w[m] * in[i + s // 2 - m]`. -/
def ndConvolve (s : Nat) (w : Nat → K) (mode : Border) (cval : K) (n : Nat) (y : Nat → K) : Nat → K :=
  fun i => ∑ m ∈ Finset.range s, w m *
    (match extIdx mode n ((i : Int) + (s / 2 : Nat) - m) with
     | some j => y j
     | none => cval)

/-- `ConvolutionTF.__call__`, transfer_function.py:715-738. -/
def convCall (s : Nat) (w : Nat → K) (mode : Border) (cval : K) (n : Nat) (y : Nat → K) : Nat → K :=
  ndConvolve s w mode cval n y

/-- `ConvolutionTF.gradient_chain_rule`, transfer_function.py:740-768: same kernel, and the border mode is
not passed on, so scipy's default `reflect` is used. -/
def convGrad (s : Nat) (w : Nat → K) (cval : K) (n : Nat) (g : Nat → K) : Nat → K :=
  ndConvolve s w .reflect cval n g

/-- `GaussianConvolution`: call and gradient are the same filter with the same border mode,
transfer_function.py:864-867 and 893-896.  The kernel weights are a parameter. -/
def gaussCall (s : Nat) (w : Nat → K) (mode : Border) (n : Nat) (y : Nat → K) : Nat → K :=
  ndConvolve s w mode 0 n y

/-- Specification of C13: `back` is the adjoint of the linear part of `call` on columns of length `n`. -/
def IsAdjoint (n : Nat) (call back : (Nat → K) → Nat → K) : Prop :=
  ∀ g y y' : Nat → K,
    ∑ i ∈ Finset.range n, g i * (call y i - call y' i)
      = ∑ i ∈ Finset.range n, back g i * (y i - y' i)

/-- Congruence description of `reflect`. -/
theorem extIdx_reflect_iff (n : Nat) (hn : 0 < n) (z : Int) (j : Nat) (hj : j < n) :
    extIdx .reflect n z = some j ↔ (2 * n : Int) ∣ z - j ∨ (2 * n : Int) ∣ z + 1 + j := by
  have hpos : (0 : Int) < 2 * n := by omega
  have h0 := Int.emod_nonneg z hpos.ne'
  have h1 := Int.emod_lt_of_pos z hpos
  have hz := Int.emod_add_mul_ediv z (2 * n)
  simp only [extIdx, Option.some.injEq]
  set r := z % (2 * n) with hr
  set q := z / (2 * n) with hq
  have d1 : (2 * n : Int) ∣ z - j ↔ r = j := by
    constructor
    · rintro ⟨k, hk⟩
      have : r - j = 2 * n * (k - q) := by linear_combination hz + hk
      have h2 : (k - q) = 0 := by
        by_contra hne
        rcases lt_or_gt_of_ne hne with h | h
        · have : 2 * (n : Int) * (k - q) ≤ 2 * n * (-1) := by
            apply mul_le_mul_of_nonneg_left _ hpos.le; omega
          omega
        · have : 2 * (n : Int) * 1 ≤ 2 * n * (k - q) := by
            apply mul_le_mul_of_nonneg_left _ hpos.le; omega
          omega
      rw [h2] at this; omega
    · intro h; exact ⟨q, by linear_combination h - hz⟩
  have d2 : (2 * n : Int) ∣ z + 1 + j ↔ r = 2 * n - 1 - j := by
    constructor
    · rintro ⟨k, hk⟩
      have : r + 1 + j = 2 * n * (k - q) := by linear_combination hz + hk
      have h2 : (k - q) = 1 := by
        by_contra hne
        rcases lt_or_gt_of_ne hne with h | h
        · have : 2 * (n : Int) * (k - q) ≤ 2 * n * 0 := by
            apply mul_le_mul_of_nonneg_left _ hpos.le; omega
          omega
        · have : 2 * (n : Int) * 2 ≤ 2 * n * (k - q) := by
            apply mul_le_mul_of_nonneg_left _ hpos.le; omega
          omega
      rw [h2] at this; omega
    · intro h; exact ⟨q + 1, by linear_combination h - hz⟩
  rw [d1, d2]
  split <;> omega

theorem extIdx_reflect_lt (n : Nat) (hn : 0 < n) (z : Int) : ∃ j, extIdx .reflect n z = some j ∧ j < n := by
  have hpos : (0 : Int) < 2 * n := by omega
  have h0 := Int.emod_nonneg z hpos.ne'
  have h1 := Int.emod_lt_of_pos z hpos
  refine ⟨_, rfl, ?_⟩
  split <;> omega

/-- Coefficient of input `j` in output `i` of a `reflect` convolution. -/
def reflCoeff (h : Nat) (w : Nat → K) (n i j : Nat) : K :=
  ∑ m ∈ Finset.range (2 * h + 1), w m *
    if extIdx .reflect n ((i : Int) + h - m) = some j then 1 else 0

theorem ndConvolve_reflect (h : Nat) (w : Nat → K) (cval : K) (n : Nat) (hn : 0 < n) (y : Nat → K)
    (i : Nat) : ndConvolve (2 * h + 1) w .reflect cval n y i
      = ∑ j ∈ Finset.range n, reflCoeff h w n i j * y j := by
  unfold ndConvolve reflCoeff
  simp only [Finset.sum_mul]
  rw [Finset.sum_comm]
  apply Finset.sum_congr rfl
  intro m _
  have hs : ((2 * h + 1) / 2 : Nat) = h := by omega
  rw [hs]
  obtain ⟨j, hj, hlt⟩ := extIdx_reflect_lt n hn ((i : Int) + h - m)
  rw [hj]
  simp only [Option.some.injEq]
  rw [Finset.sum_eq_single j]
  · simp
  · intro b _ hb; simp [Ne.symm hb]
  · intro hnot; simp at hnot; omega

theorem reflCoeff_symm (h : Nat) (w : Nat → K) (hw : ∀ m ≤ 2 * h, w m = w (2 * h - m)) (n i j : Nat)
    (hi : i < n) (hj : j < n) : reflCoeff h w n i j = reflCoeff h w n j i := by
  have hn : 0 < n := by omega
  have key : ∀ a b : Nat, a < n → b < n → reflCoeff h w n a b
      = (∑ m ∈ Finset.range (2 * h + 1), w m * if (2 * n : Int) ∣ (a : Int) + h - m - b then 1 else 0)
        + ∑ m ∈ Finset.range (2 * h + 1), w m *
            if (2 * n : Int) ∣ (a : Int) + h - m + 1 + b then 1 else 0 := by
    intro a b ha hb
    unfold reflCoeff
    rw [← Finset.sum_add_distrib]
    apply Finset.sum_congr rfl
    intro m _
    have hiff := extIdx_reflect_iff n hn ((a : Int) + h - m) b hb
    have hdis : ¬ ((2 * n : Int) ∣ (a : Int) + h - m - b ∧ (2 * n : Int) ∣ (a : Int) + h - m + 1 + b) := by
      rintro ⟨⟨k, hk⟩, ⟨l, hl⟩⟩
      have : (2 * b + 1 : Int) = 2 * (n * (l - k)) := by linear_combination hl - hk
      omega
    by_cases c1 : (2 * n : Int) ∣ (a : Int) + h - m - b
    · have c2 : ¬ (2 * n : Int) ∣ (a : Int) + h - m + 1 + b := fun hc => hdis ⟨c1, hc⟩
      rw [if_pos (hiff.mpr (Or.inl c1)), if_pos c1, if_neg c2]; ring
    · by_cases c2 : (2 * n : Int) ∣ (a : Int) + h - m + 1 + b
      · rw [if_pos (hiff.mpr (Or.inr c2)), if_neg c1, if_pos c2]; ring
      · rw [if_neg (fun hc => (hiff.mp hc).elim c1 c2), if_neg c1, if_neg c2]; ring
  rw [key i j hi hj, key j i hj hi]
  congr 1
  · rw [← Finset.sum_range_reflect]
    apply Finset.sum_congr rfl
    intro m hm
    have hm' : m ≤ 2 * h := by have := Finset.mem_range.mp hm; omega
    have e : 2 * h + 1 - 1 - m = 2 * h - m := by omega
    rw [e, ← hw m hm']
    congr 1
    have : ((i : Int) + h - ((2 * h - m : Nat) : Int) - j) = -((j : Int) + h - m - i) := by
      push_cast [hm']; ring
    rw [this]
    simp only [dvd_neg]
  · apply Finset.sum_congr rfl
    intro m _
    have : ((i : Int) + h - m + 1 + j) = ((j : Int) + h - m + 1 + i) := by ring
    rw [this]

theorem reflect_adjoint (h : Nat) (w : Nat → K) (hw : ∀ m ≤ 2 * h, w m = w (2 * h - m)) (n : Nat)
    (cval cval' : K) : IsAdjoint n (ndConvolve (2 * h + 1) w .reflect cval n)
      (ndConvolve (2 * h + 1) w .reflect cval' n) := by
  intro g y y'
  rcases Nat.eq_zero_or_pos n with rfl | hn
  · simp
  have e1 : ∀ i ∈ Finset.range n, g i * (ndConvolve (2 * h + 1) w .reflect cval n y i
      - ndConvolve (2 * h + 1) w .reflect cval n y' i)
      = ∑ j ∈ Finset.range n, g i * reflCoeff h w n i j * (y j - y' j) := by
    intro i _
    rw [ndConvolve_reflect _ _ _ _ hn, ndConvolve_reflect _ _ _ _ hn, ← Finset.sum_sub_distrib,
      Finset.mul_sum]
    exact Finset.sum_congr rfl fun j _ => by ring
  have e2 : ∀ j ∈ Finset.range n, ndConvolve (2 * h + 1) w .reflect cval' n g j * (y j - y' j)
      = ∑ i ∈ Finset.range n, g i * reflCoeff h w n i j * (y j - y' j) := by
    intro j hj
    rw [ndConvolve_reflect _ _ _ _ hn, Finset.sum_mul]
    apply Finset.sum_congr rfl
    intro i hi
    rw [reflCoeff_symm h w hw n i j (Finset.mem_range.mp hi) (Finset.mem_range.mp hj)]
    ring
  rw [Finset.sum_congr rfl e1, Finset.sum_congr rfl e2, Finset.sum_comm]

/-! ## Property theorems

Full statement (C13): `IsAdjoint n (convCall s w mode cval n) (convGrad s w cval n)` for every kernel, mode
and length.  The code violates it; the cases in which it holds are stated as `_partial`. -/

/-- **C13 (partial)** Symmetric kernel of odd length and border mode `reflect`: the gradient is the adjoint.
Missing: other kernels and modes (violated below). -/
theorem c13_reflect_symmetric_partial (h : Nat) (w : Nat → K) (hw : ∀ m ≤ 2 * h, w m = w (2 * h - m))
    (n : Nat) (cval : K) :
    IsAdjoint n (convCall (2 * h + 1) w .reflect cval n) (convGrad (2 * h + 1) w cval n) :=
  reflect_adjoint h w hw n cval cval

/-- `nearest` and `reflect` read the same sample one step beyond the border. -/
theorem extIdx_nearest_eq (n : Nat) (z : Int) (h0 : -1 ≤ z) (h1 : z ≤ n) (hn : 0 < n) :
    extIdx .nearest n z = extIdx .reflect n z := by
  simp only [extIdx, Option.some.injEq]
  rcases lt_or_ge z 0 with h | h
  · have hz : z = -1 := by omega
    subst hz
    have : (-1 : Int) % (2 * n) = 2 * n - 1 := by
      rw [Int.emod_def]
      have : (-1 : Int) / (2 * n) = -1 := by
        rw [Int.ediv_eq_iff_of_pos (by omega)]; omega
      rw [this]; ring
    rw [this]
    split <;> omega
  · have : z % (2 * n) = z := Int.emod_eq_of_lt h (by omega)
    rw [this]
    split <;> omega

/-- **C13 (partial)** The default border mode `nearest` with a symmetric kernel of at most three entries:
the gradient is the adjoint.  Missing: longer or asymmetric kernels (violated below). -/
theorem c13_nearest_short_partial (h : Nat) (hh : h ≤ 1) (w : Nat → K)
    (hw : ∀ m ≤ 2 * h, w m = w (2 * h - m)) (n : Nat) (cval : K) :
    IsAdjoint n (convCall (2 * h + 1) w .nearest cval n) (convGrad (2 * h + 1) w cval n) := by
  rcases Nat.eq_zero_or_pos n with rfl | hn
  · intro g y y'; simp
  have heq : ∀ y i, i < n → ndConvolve (2 * h + 1) w .nearest cval n y i
      = ndConvolve (2 * h + 1) w .reflect cval n y i := by
    intro y i hi
    unfold ndConvolve
    apply Finset.sum_congr rfl
    intro m hm
    have hm' := Finset.mem_range.mp hm
    rw [extIdx_nearest_eq n _ (by omega) (by omega) hn]
  intro g y y'
  refine Eq.trans ?_ (reflect_adjoint h w hw n cval cval g y y')
  apply Finset.sum_congr rfl
  intro i hi
  rw [convCall, convCall, heq _ _ (Finset.mem_range.mp hi), heq _ _ (Finset.mem_range.mp hi)]

/-- **C13 (partial)** `GaussianConvolution` with mode `reflect` and a symmetric kernel (even order). -/
theorem c13_gaussian_reflect_partial (h : Nat) (w : Nat → K) (hw : ∀ m ≤ 2 * h, w m = w (2 * h - m))
    (n : Nat) : IsAdjoint n (gaussCall (2 * h + 1) w .reflect n) (gaussCall (2 * h + 1) w .reflect n) :=
  reflect_adjoint h w hw n 0 0

/-- The kernel entry decides one entry of both sides of the adjointness equation. -/
theorem adjoint_entry {n : Nat} {call back : (Nat → K) → Nat → K} (hadj : IsAdjoint n call back) (a b : Nat)
    (ha : a < n) (hb : b < n) :
    call (fun j => if j = b then 1 else 0) a - call (fun _ => 0) a
      = back (fun i => if i = a then 1 else 0) b := by
  have := hadj (fun i => if i = a then 1 else 0) (fun j => if j = b then 1 else 0) (fun _ => 0)
  simpa [ha, hb] using this

/-- **C13 violated** (asymmetric kernel, default mode): the kernel `[1, 0, 0]` on two steps. -/
theorem c13_violated_asymmetric :
    ¬ IsAdjoint 2 (convCall 3 (fun m => if m = 0 then (1 : ℚ) else 0) .nearest 0 2)
      (convGrad 3 (fun m => if m = 0 then (1 : ℚ) else 0) 0 2) := by
  intro hadj
  have := adjoint_entry hadj 0 1 (by norm_num) (by norm_num)
  simp [convCall, convGrad, ndConvolve, extIdx, Finset.sum_range_succ] at this

/-- **C13 violated** (symmetric kernel, default mode): a symmetric kernel of length five with non-zero outer
entries `b`, on any pulse of at least three steps; the gradient silently uses another border mode. -/
theorem c13_violated_nearest (w : Nat → K) (hb : w 0 ≠ 0) (hs : w 4 = w 0 ∧ w 3 = w 1) :
    ¬ IsAdjoint 3 (convCall 5 w .nearest 0 3) (convGrad 5 w 0 3) := by
  intro hadj
  have := adjoint_entry hadj 0 1 (by norm_num) (by norm_num)
  simp [convCall, convGrad, ndConvolve, extIdx, Finset.sum_range_succ, hs.1, hs.2] at this
  exact hb this

/-- **C13 violated** for `GaussianConvolution` in its default mode `nearest`: any kernel of radius 2 with a
non-zero outer weight (a Gaussian kernel always is), on three steps. -/
theorem c13_violated_gaussian (w : Nat → K) (hb : w 0 ≠ 0) (hs : w 4 = w 0 ∧ w 3 = w 1) :
    ¬ IsAdjoint 3 (gaussCall 5 w .nearest 3) (gaussCall 5 w .nearest 3) := by
  intro hadj
  have := adjoint_entry hadj 0 1 (by norm_num) (by norm_num)
  simp [gaussCall, ndConvolve, extIdx, Finset.sum_range_succ, hs.1, hs.2] at this
  exact hb this

/-- Non-vacuity of the partial theorems: the symmetric kernel `[1, 2, 1]`. -/
example : ∀ m ≤ 2 * 1, (fun m => if m = 1 then (2 : ℚ) else 1) m
    = (fun m => if m = 1 then (2 : ℚ) else 1) (2 * 1 - m) := by
  intro m hm
  have : m = 0 ∨ m = 1 ∨ m = 2 := by omega
  rcases this with rfl | rfl | rfl <;> norm_num

end
end Verif.Transfer
