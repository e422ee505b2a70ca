import Mathlib.Analysis.SpecialFunctions.Exp
import Mathlib.Tactic.Linarith
import Mathlib.Tactic.Positivity
import Verif.Transfer.ComposeThms

/-! # C14: the exponential saturation transfer function

Model of `ExponentialMTF._calculate_transfer_matrix` (transfer_function.py:1502-1551) with real numbers and
the real exponential. -/

namespace Verif.Transfer
open Verif TF

/-- Assignment `m[r0:r0+len, col] = vals`. -/
def setColBlock (m : Nat → Nat → ℝ) (r0 len col : Nat) (vals : Nat → ℝ) : Nat → Nat → ℝ :=
  fun i j => if r0 ≤ i ∧ i < r0 + len ∧ j = col then vals (i - r0) else m i j

/-- `exp[j] = np.exp(-((j + 1) * x_tau / oversampling / awg_rise_time))`, transfer_function.py:1515-1519. -/
noncomputable def expDecay (rise tau : ℝ) (os j : Nat) : ℝ :=
  Real.exp (-(((j : ℝ) + 1) * tau / os / rise))

/-- The matrix without the start padding rows, transfer_function.py:1508-1541, as the sequence of slice
assignments of the code. -/
noncomputable def expRows (rise tau : ℝ) (os numX numY padEnd : Nat) : Nat → Nat → ℝ :=
  let e := expDecay rise tau os
  let m0 : Nat → Nat → ℝ := fun _ _ => 0
  let m1 := setColBlock m0 0 os 0 (fun j => 1 - e j)
  let m2 := if os < numX then setColBlock m1 os os 0 e else m1
  let m3 := (List.range' 1 (numY - 2)).foldl (fun m i =>
    setColBlock (setColBlock m (i * os) os i (fun j => 1 - e j)) ((i + 1) * os) os i e) m2
  let m4 := setColBlock m3 ((numY - 1) * os) os (numY - 1) (fun j => 1 - e j)
  (List.range padEnd).foldl (fun m i =>
    setColBlock m (numY * os + i) 1 (numY - 1)
      (fun _ => Real.exp (-(((i : ℝ) + 1) / os * tau / rise)))) m4

/-- `ExponentialMTF._calculate_transfer_matrix`, transfer_function.py:1502-1551.  `y_times[0]` raises on
missing or empty times.  The slice `dudx[os:2*os, 0]` is shorter than `oversampling` only for a single step
with `0 < pad_end < oversampling`; numpy then raises `ValueError` unless `oversampling` is 1.  The array is
`(num_x, num_y)`, repeated for all controls. -/
noncomputable def exponentialTensor (c : Nat) (rise : ℝ) (b : Base ℝ) : Except PyErr (Tensor ℝ c) := do
  let (ps, pe) ← b.numPadding
  match b.yTimes with
  | none => .error .typeError
  | some ys =>
    match ys.head? with
    | none => .error .indexError
    | some tau =>
      if b.numY = 1 ∧ b.oversampling < b.numX ∧ pe < b.oversampling ∧ b.oversampling ≠ 1 then
        .error .valueError
      else
        let m := expRows rise tau b.oversampling b.numX b.numY pe
        pure ⟨b.numX, b.numY, fun i j _ => if i < ps then 0 else m (i - ps) j⟩

/-! ## Closed form of the matrix -/

/-- Specification: the value before step `i` of the exponential response, 0 before the first step. -/
def prevValue {c : Nat} (y : Pulse ℝ c) (i : Nat) (k : Fin c) : ℝ :=
  if i = 0 then 0 else rowAt y (i - 1) k

theorem expRows_block (rise tau : ℝ) (os numX numY pe i j : Nat) (hos : 0 < os) (h2 : 2 ≤ numY)
    (hX : os * numY ≤ numX) (hi : i < numY) (hj : j < os) (l : Nat) (hl : l < numY) :
    expRows rise tau os numX numY pe (i * os + j) l =
      if l = i then 1 - expDecay rise tau os j
      else if l + 1 = i then expDecay rise tau os j else 0 := by
  have hin : i * os + j < numY * os := by
    calc i * os + j < i * os + os := by omega
      _ = (i + 1) * os := by ring
      _ ≤ numY * os := Nat.mul_le_mul_right _ hi
  -- block membership
  have hblk : ∀ a : Nat, (a * os ≤ i * os + j ∧ i * os + j < a * os + os) ↔ a = i := by
    intro a
    constructor
    · rintro ⟨h1, h2⟩
      rcases Nat.lt_trichotomy a i with h | h | h
      · have : (a + 1) * os ≤ i * os := Nat.mul_le_mul_right _ h
        have e : (a + 1) * os = a * os + os := by ring
        omega
      · exact h
      · have : (i + 1) * os ≤ a * os := Nat.mul_le_mul_right _ h
        have e : (i + 1) * os = i * os + os := by ring
        omega
    · rintro rfl; omega
  -- the padding loop does not touch the main rows
  have hpad : ∀ (L : List Nat) (m : Nat → Nat → ℝ), (L.foldl (fun m i =>
      setColBlock m (numY * os + i) 1 (numY - 1)
        (fun _ => Real.exp (-(((i : ℝ) + 1) / os * tau / rise)))) m) (i * os + j) l = m (i * os + j) l := by
    intro L
    induction L with
    | nil => intro m; rfl
    | cons a L ih =>
      intro m
      rw [List.foldl_cons, ih]
      unfold setColBlock
      rw [if_neg]; omega
  -- one assignment of a whole block
  have hset : ∀ (m : Nat → Nat → ℝ) (a col : Nat) (v : Nat → ℝ),
      setColBlock m (a * os) os col v (i * os + j) l = if a = i ∧ l = col then v j else m (i * os + j) l := by
    intro m a col v
    unfold setColBlock
    by_cases ha : a = i
    · subst ha
      by_cases hl' : l = col
      · rw [if_pos ⟨by omega, by omega, hl'⟩, if_pos ⟨rfl, hl'⟩]; congr 1; omega
      · rw [if_neg (fun h => hl' h.2.2), if_neg (fun h => hl' h.2)]
    · rw [if_neg (fun h => ha ((hblk a).mp ⟨h.1, h.2.1⟩)), if_neg (fun h => ha h.1)]
  -- the main loop
  have hloop : ∀ (n s : Nat) (m : Nat → Nat → ℝ), 1 ≤ s →
      ((List.range' s n).foldl (fun m i =>
        setColBlock (setColBlock m (i * os) os i (fun j => 1 - expDecay rise tau os j)) ((i + 1) * os) os i
          (expDecay rise tau os)) m) (i * os + j) l
      = if s ≤ l ∧ l < s + n then
          (if l = i then 1 - expDecay rise tau os j else if l + 1 = i then expDecay rise tau os j
            else m (i * os + j) l)
        else m (i * os + j) l := by
    intro n
    induction n with
    | zero => intro s m _; simp only [List.range'_zero, List.foldl_nil]; rw [if_neg (by omega)]
    | succ n ih =>
      intro s m hs
      rw [List.range'_succ, List.foldl_cons, ih (s + 1) _ (by omega), hset, hset]
      split_ifs <;> first | rfl | omega
  unfold expRows
  rw [hpad, hset, hloop _ _ _ le_rfl]
  have hX' : os < numX := by
    have : os * 2 ≤ os * numY := Nat.mul_le_mul_left _ h2
    omega
  rw [if_pos hX']
  have e0 := hset (setColBlock (fun _ _ => 0) 0 os 0 (fun j => 1 - expDecay rise tau os j)) 1 0
    (expDecay rise tau os)
  rw [one_mul] at e0
  have e1 := hset (fun _ _ => 0) 0 0 (fun j => 1 - expDecay rise tau os j)
  rw [zero_mul] at e1
  rw [e0, e1]
  split_ifs <;> first | rfl | omega

theorem expRows_pad (rise tau : ℝ) (os numX numY pe i : Nat) (hos : 0 < os) (h2 : 2 ≤ numY)
    (hX : os * numY ≤ numX) (hi : i < pe) (l : Nat) (hl : l < numY) :
    expRows rise tau os numX numY pe (numY * os + i) l =
      if l = numY - 1 then Real.exp (-(((i : ℝ) + 1) / os * tau / rise)) else 0 := by
  have hset : ∀ (m : Nat → Nat → ℝ) (a col : Nat) (v : Nat → ℝ), a < numY →
      setColBlock m (a * os) os col v (numY * os + i) l = m (numY * os + i) l := by
    intro m a col v ha
    unfold setColBlock
    rw [if_neg]
    have : (a + 1) * os ≤ numY * os := Nat.mul_le_mul_right _ ha
    have e : (a + 1) * os = a * os + os := by ring
    omega
  have hloop : ∀ (n s : Nat) (m : Nat → Nat → ℝ), s + n ≤ numY - 1 →
      ((List.range' s n).foldl (fun m i =>
        setColBlock (setColBlock m (i * os) os i (fun j => 1 - expDecay rise tau os j)) ((i + 1) * os) os i
          (expDecay rise tau os)) m) (numY * os + i) l = m (numY * os + i) l := by
    intro n
    induction n with
    | zero => intro s m _; rfl
    | succ n ih =>
      intro s m hs
      rw [List.range'_succ, List.foldl_cons, ih (s + 1) _ (by omega), hset _ _ _ _ (by omega),
        hset _ _ _ _ (by omega)]
  have hpad : ∀ (n : Nat) (m : Nat → Nat → ℝ), ((List.range n).foldl (fun m i =>
      setColBlock m (numY * os + i) 1 (numY - 1)
        (fun _ => Real.exp (-(((i : ℝ) + 1) / os * tau / rise)))) m) (numY * os + i) l =
      if i < n ∧ l = numY - 1 then Real.exp (-(((i : ℝ) + 1) / os * tau / rise))
      else m (numY * os + i) l := by
    intro n
    induction n with
    | zero => intro m; simp
    | succ n ih =>
      intro m
      rw [List.range_succ, List.foldl_append, List.foldl_cons, List.foldl_nil]
      unfold setColBlock at ih ⊢
      by_cases hn : i = n
      · subst hn
        by_cases hl' : l = numY - 1
        · rw [if_pos ⟨by omega, by omega, hl'⟩, if_pos ⟨by omega, hl'⟩]
        · rw [if_neg (fun h => hl' h.2.2), ih, if_neg (fun h => hl' h.2), if_neg (fun h => hl' h.2)]
      · rw [if_neg (by omega), ih]
        by_cases hc : i < n ∧ l = numY - 1
        · rw [if_pos hc, if_pos (by omega)]
        · rw [if_neg hc, if_neg (by omega)]
  unfold expRows
  rw [hpad, hset _ _ _ _ (by omega), hloop _ _ _ (by omega)]
  have hX' : os < numX := by
    have : os * 2 ≤ os * numY := Nat.mul_le_mul_left _ h2
    omega
  rw [if_pos hX']
  have e0 := hset (setColBlock (fun _ _ => 0) 0 os 0 (fun j => 1 - expDecay rise tau os j)) 1 0
    (expDecay rise tau os) (by omega)
  rw [one_mul] at e0
  have e1 := hset (fun _ _ => 0) 0 0 (fun j => 1 - expDecay rise tau os j) (by omega)
  rw [zero_mul] at e1
  rw [e0, e1]
  by_cases h : l = numY - 1
  · rw [if_pos ⟨hi, h⟩, if_pos h]
  · rw [if_neg (fun hh => h hh.2), if_neg h]

section
variable {c : Nat}

/-- Closed form of the output of an `ExponentialMTF` (helper for the property theorems). -/
theorem exponential_rows (b : Base ℝ) (o : Option ℝ) (rise tau : ℝ) (rest : List ℝ) (ps pe : Nat)
    (hos : 0 < b.oversampling) (hrest : rest ≠ [])
    (hp : specPadding b.bound b.oversampling = some (ps, pe)) (t : TF ℝ c) (y : Pulse ℝ c)
    (ht : (TF.matrix b o (exponentialTensor c rise) none).setTimes (tau :: rest) = .ok t)
    (hy : y.length = (tau :: rest).length) :
    ∃ x, t.run y = .ok x ∧ x.length = t.base.numX ∧
      t.base.numX = ps + b.oversampling * y.length + pe ∧
      (∀ i < ps, ∀ k, rowAt x i k = o.getD 0) ∧
      (∀ i j, i < y.length → j < b.oversampling → ∀ k, rowAt x (ps + i * b.oversampling + j) k
        = prevValue y i k * expDecay rise tau b.oversampling j
          + rowAt y i k * (1 - expDecay rise tau b.oversampling j) + o.getD 0) ∧
      (∀ i < pe, ∀ k, rowAt x (ps + b.oversampling * y.length + i) k
        = rowAt y (y.length - 1) k * Real.exp (-(((i : ℝ) + 1) / b.oversampling * tau / rise))
          + o.getD 0) := by
  simp only [TF.setTimes] at ht
  obtain ⟨b', hb, ht⟩ := bind_ok ht
  simp only [pure, Except.pure, Except.ok.injEq] at ht
  subst ht
  obtain ⟨x', ps', pe', hx, hyt, hn, hs, hpad, hl, hX⟩ := c01_grid_length b b' _ hb
  rw [hp] at hs
  simp only [Option.some.injEq, Prod.mk.injEq] at hs
  obtain ⟨rfl, rfl⟩ := hs
  have hose := (setTimes_base hb).2
  have h2 : 2 ≤ (tau :: rest).length := by
    cases rest with
    | nil => exact absurd rfl hrest
    | cons a r => simp
  have hT : exponentialTensor c rise b' = .ok ⟨b'.numX, b'.numY, fun i j _ => if i < ps then 0 else
      expRows rise tau b'.oversampling b'.numX b'.numY pe (i - ps) j⟩ := by
    unfold exponentialTensor
    rw [hpad]
    simp only [bind, Except.bind, hyt, List.head?_cons]
    rw [if_neg (by omega)]
    rfl
  have hnY : b'.numY = y.length := by rw [hn, hy]
  rw [← hy] at h2 hX
  have hrun : (TF.matrix b' o (exponentialTensor c rise) none).run y = .ok (addOffset o
      ((List.range b'.numX).map fun i k => ∑ j ∈ Finset.range b'.numY,
        (if i < ps then 0 else expRows rise tau b'.oversampling b'.numX b'.numY pe (i - ps) j)
          * rowAt y j k)) := by
    rw [run_matrix, checkRows_of hyt (by rw [hn, hy]), getMatrix, hT]
    simp only [bind, Except.bind, Tensor.apply]
    rw [if_pos hnY.symm]
    rfl
  have hrow : ∀ i < b'.numX, ∀ k, rowAt (addOffset o
      ((List.range b'.numX).map fun i k => ∑ j ∈ Finset.range b'.numY,
        (if i < ps then 0 else expRows rise tau b'.oversampling b'.numX b'.numY pe (i - ps) j)
          * rowAt y j k)) i k = (∑ j ∈ Finset.range y.length,
        (if i < ps then 0 else expRows rise tau b'.oversampling b'.numX b'.numY pe (i - ps) j)
          * rowAt y j k) + o.getD 0 := by
    intro i hi k
    rw [← hnY]
    cases o with
    | none => simp [addOffset, rowAt, hi]
    | some o => simp [addOffset, rowAt, hi]
  refine ⟨_, hrun, ?_, hX, ?_, ?_, ?_⟩
  · rw [addOffset_length]; simp [TF.base]
  · intro i hi k
    rw [hrow i (by omega)]
    simp [hi]
  · intro i j hi hj k
    have hlt : i * b.oversampling + j < b.oversampling * y.length := by
      calc i * b.oversampling + j < i * b.oversampling + b.oversampling := by omega
        _ = b.oversampling * (i + 1) := by ring
        _ ≤ b.oversampling * y.length := Nat.mul_le_mul_left _ hi
    rw [hrow _ (by omega)]
    have hsub : ps + i * b.oversampling + j - ps = i * b.oversampling + j := by omega
    have hsum : (∑ l ∈ Finset.range y.length,
        (if ps + i * b.oversampling + j < ps then 0
          else expRows rise tau b'.oversampling b'.numX b'.numY pe (ps + i * b.oversampling + j - ps) l)
          * rowAt y l k) = ∑ l ∈ Finset.range y.length,
        ((if l = i then (1 - expDecay rise tau b.oversampling j) * rowAt y l k else 0)
          + if l + 1 = i then expDecay rise tau b.oversampling j * rowAt y l k else 0) := by
      apply Finset.sum_congr rfl
      intro l hl
      rw [if_neg (by omega), hsub, hose, hnY, expRows_block rise tau b.oversampling b'.numX y.length pe i j
        hos h2 (by omega) hi hj l (Finset.mem_range.mp hl)]
      by_cases h1 : l = i
      · subst h1; simp
      · by_cases h3 : l + 1 = i
        · simp [h1, h3]
        · simp [h1, h3]
    rw [hsum, Finset.sum_add_distrib, Finset.sum_ite_eq' (Finset.range y.length) i,
      if_pos (Finset.mem_range.mpr hi)]
    unfold prevValue
    by_cases h0 : i = 0
    · subst h0
      rw [if_pos rfl]
      simp only [Nat.add_eq_zero_iff, one_ne_zero, and_false, if_false, Finset.sum_const_zero]
      ring
    · rw [if_neg h0, Finset.sum_eq_single (i - 1)]
      · rw [if_pos (by omega)]; ring
      · intro l _ hl; rw [if_neg (by omega)]
      · intro hnot; simp at hnot; omega
  · intro i hi k
    rw [hrow _ (by omega)]
    have hsub : ps + b.oversampling * y.length + i - ps = y.length * b.oversampling + i := by
      rw [Nat.mul_comm]; omega
    have hsum : (∑ l ∈ Finset.range y.length,
        (if ps + b.oversampling * y.length + i < ps then 0
          else expRows rise tau b'.oversampling b'.numX b'.numY pe
            (ps + b.oversampling * y.length + i - ps) l)
          * rowAt y l k) = ∑ l ∈ Finset.range y.length,
        (if l = y.length - 1 then Real.exp (-(((i : ℝ) + 1) / b.oversampling * tau / rise)) * rowAt y l k
          else 0) := by
      apply Finset.sum_congr rfl
      intro l hl
      rw [if_neg (by omega), hsub, hose, hnY, expRows_pad rise tau b.oversampling b'.numX y.length pe i
        hos h2 (by omega) hi l (Finset.mem_range.mp hl)]
      by_cases h1 : l = y.length - 1
      · simp [h1]
      · simp [h1]
    rw [hsum, Finset.sum_ite_eq' (Finset.range y.length) (y.length - 1),
      if_pos (Finset.mem_range.mpr (by omega))]
    ring

end
end Verif.Transfer
