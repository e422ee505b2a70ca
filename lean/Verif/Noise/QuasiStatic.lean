import Verif.Noise.Variance
import Mathlib.Data.List.GetD
import Mathlib.Data.List.Basic
import Mathlib.Data.List.Nodup
import Mathlib.Tactic.IntervalCases

/-! # C71, C73 and C74: quasi-static noise -/

namespace Verif.Noise
open Verif Real

/-! ## The filled array -/

/-- The row of operator `i` and trace `j`. -/
def row (a : Arr3) (i j : Nat) : Option (List ℝ) := a[i]?.bind fun m => m[j]?

theorem row_setRow (a : Arr3) (i j : Nat) (r : List ℝ) (i' j' : Nat) :
    row (setRow a i j r) i' j' = if i = i' ∧ j = j' then (row a i' j').map fun _ => r else row a i' j' := by
  unfold row setRow
  rw [List.getElem?_modify]
  cases ha : a[i']? with
  | none => simp
  | some m =>
    by_cases hi : i = i'
    · by_cases hj : j = j'
      · subst hj
        simp only [hi, and_self, if_true, Option.map_eq_map, Option.map_some, Option.bind_some]
        rw [List.getElem?_set]
        by_cases hlt : j < m.length
        · simp [hlt]
        · simp [hlt]
      · simp [hi, hj, List.getElem?_set]
    · simp [hi]

theorem row_fillTraces (a : Arr3) (i n s : Nat) (samples : List ℝ) (i' j' : Nat) :
    row (fillTraces a i n s samples) i' j' = if i = i' ∧ i * n ≤ j' ∧ j' < i * n + n then
      (row a i' j').map fun _ => List.replicate s (samples.getD (j' - i * n) 0) else row a i' j' := by
  have key : ∀ k, row ((List.range k).foldl (fun a j => setRow a i (i * n + j) (List.replicate s (samples.getD j 0 * 1))) a) i' j' =
      if i = i' ∧ i * n ≤ j' ∧ j' < i * n + k then
        (row a i' j').map fun _ => List.replicate s (samples.getD (j' - i * n) 0) else row a i' j' := by
    intro k
    induction k with
    | zero =>
      rw [if_neg (by omega)]
      simp
    | succ k ih =>
      rw [List.range_succ, List.foldl_append, List.foldl_cons, List.foldl_nil, row_setRow, ih]
      by_cases h1 : i = i' ∧ i * n + k = j'
      · obtain ⟨rfl, rfl⟩ := h1
        rw [if_pos ⟨rfl, rfl⟩, if_neg (by omega), if_pos (by omega)]
        have : i * n + k - i * n = k := by omega
        rw [this, mul_one]
      · rw [if_neg h1]
        by_cases h2 : i = i' ∧ i * n ≤ j' ∧ j' < i * n + k
        · rw [if_pos h2, if_pos (by omega)]
        · rw [if_neg h2, if_neg (by omega)]
  exact key n

theorem lengths_setRow (a : Arr3) (i j : Nat) (r : List ℝ) : (setRow a i j r).map List.length = a.map List.length := by
  unfold setRow
  refine List.ext_getElem? fun k => ?_
  rw [List.getElem?_map, List.getElem?_map, List.getElem?_modify]
  cases a[k]? with
  | none => simp
  | some m => by_cases h : i = k <;> simp [h]

theorem lengths_fillTraces (a : Arr3) (i n s : Nat) (samples : List ℝ) :
    (fillTraces a i n s samples).map List.length = a.map List.length := by
  unfold fillTraces
  generalize List.range n = l
  induction l generalizing a with
  | nil => rfl
  | cons x l ih => rw [List.foldl_cons, ih, lengths_setRow]

/-- Sample `j` of `n` for the standard deviation `std`. -/
noncomputable def smp (e : ℝ → ℝ) (std : ℝ) (n j : Nat) : ℝ := std * √2 * e (pt n j) + 0

theorem fillOps_ok (e : ℝ → ℝ) {n : Nat} (hn : 0 < n) (s : Nat) : ∀ (l : List ℝ) (a : Arr3) (i0 : Nat),
    ∃ a', fillOps e n s a i0 l = .ok a' ∧ a'.map List.length = a.map List.length ∧ ∀ i' j',
      row a' i' j' = if i0 ≤ i' ∧ i' < i0 + l.length ∧ i' * n ≤ j' ∧ j' < i' * n + n then
        (row a i' j').map fun _ => List.replicate s (smp e (l.getD (i' - i0) 0) n (j' - i' * n)) else row a i' j'
  | [], a, i0 => ⟨a, rfl, rfl, fun i' j' => by rw [if_neg (by simp; omega)]⟩
  | std :: l, a, i0 => by
    obtain ⟨a', h1, h2, h3⟩ := fillOps_ok e hn s l (fillTraces a i0 n s ((List.range n).map fun i => std * √2 * e (pt n i) + 0)) (i0 + 1)
    refine ⟨a', ?_, by rw [h2, lengths_fillTraces], fun i' j' => ?_⟩
    · unfold fillOps
      rw [sample1dim_eq e std 0 n hn]
      exact h1
    · rw [h3, row_fillTraces]
      by_cases hb : i' * n ≤ j' ∧ j' < i' * n + n
      · by_cases hi : i0 = i'
        · subst hi
          rw [if_neg (by omega), if_pos ⟨rfl, hb⟩, if_pos (by simp; omega)]
          have hk : j' - i0 * n < n := by omega
          congr 1
          funext _
          rw [List.getD_eq_getElem _ _ (by simpa using hk)]
          simp [smp]
        · by_cases hr : i0 + 1 ≤ i' ∧ i' < i0 + 1 + l.length
          · rw [if_pos ⟨hr.1, hr.2, hb⟩, if_neg (fun h => hi h.1), if_pos ⟨by omega, by simp; omega, hb⟩]
            have : i' - i0 = (i' - (i0 + 1)) + 1 := by omega
            rw [this]
            simp
          · rw [if_neg (fun h => hr ⟨h.1, h.2.1⟩), if_neg (fun h => hi h.1), if_neg (by simp; omega)]
      · rw [if_neg (fun h => hb h.2.2), if_neg (fun h => hb (by obtain ⟨rfl, h⟩ := h; exact h)), if_neg (fun h => hb h.2.2)]

theorem row_zeros (m t s i j : Nat) : row (zeros m t s) i j = if i < m ∧ j < t then some (List.replicate s 0) else none := by
  unfold row zeros
  rw [List.getElem?_replicate]
  by_cases hi : i < m
  · simp only [hi, if_true, Option.bind_some, List.getElem?_replicate, true_and]
  · simp [hi]

/-- The deterministic array: its shape, and each of its rows. -/
theorem draw_det (e : ℝ → ℝ) (h : Heap) (g : QuasiStatic) (hm : g.mode = .deterministic) (hn : 0 < g.nTraces) (randn : Nat → Nat → ℝ) :
    ∃ a, g.draw e h randn = .ok a ∧ a.length = (h.get g.sd).length ∧ (∀ m ∈ a, m.length = g.nTraces * (h.get g.sd).length) ∧
      ∀ i j, row a i j = if i < (h.get g.sd).length ∧ j < g.nTraces * (h.get g.sd).length then
        some (List.replicate g.nSamples (if j / g.nTraces = i then smp e ((h.get g.sd).getD i 0) g.nTraces (j % g.nTraces) else 0))
        else none := by
  obtain ⟨a, h1, h2, h3⟩ := fillOps_ok e hn g.nSamples (h.get g.sd)
    (zeros (h.get g.sd).length (g.nTraces * (h.get g.sd).length) g.nSamples) 0
  refine ⟨a, by unfold QuasiStatic.draw; rw [hm]; exact h1, ?_, ?_, ?_⟩
  · have := congrArg List.length h2
    simpa [zeros] using this
  · intro m hm'
    have h4 : m.length ∈ a.map List.length := List.mem_map_of_mem hm'
    rw [h2] at h4
    simp only [zeros, List.map_replicate, List.length_replicate, List.mem_replicate] at h4
    exact h4.2
  · intro i j
    rw [h3, row_zeros]
    by_cases hb : i < (h.get g.sd).length ∧ j < g.nTraces * (h.get g.sd).length
    · rw [if_pos hb]
      by_cases hj : j / g.nTraces = i
      · have h5 := Nat.div_add_mod j g.nTraces
        have h6 := Nat.mod_lt j hn
        rw [hj, Nat.mul_comm] at h5
        rw [if_pos ⟨Nat.zero_le _, by omega, by omega, by omega⟩, if_pos hj]
        have : j - i * g.nTraces = j % g.nTraces := by omega
        rw [if_pos hb, Option.map_some, this, Nat.sub_zero]
      · rw [if_neg, if_neg hj, if_pos hb]
        rintro ⟨_, _, h5, h6⟩
        apply hj
        rw [Nat.div_eq_of_lt_le h5 (by rw [Nat.succ_mul]; exact h6)]
    · rw [if_neg hb, if_neg hb]
      simp

theorem row_eq_some {a : Arr3} {i j : Nat} {m : List (List ℝ)} {r : List ℝ} (h1 : a[i]? = some m) (h2 : m[j]? = some r) :
    row a i j = some r := by simp [row, h1, h2]

/-- **C71** (shape): the array has one block per operator, each with as many traces as the property `n_traces` reports, each
trace with the requested number of samples; in both modes. -/
theorem c71_shape (e : ℝ → ℝ) (h : Heap) (g : QuasiStatic) (hm : g.mode ≠ .other) (hn : 0 < g.nTraces) (randn : Nat → Nat → ℝ) :
    ∃ a N, g.draw e h randn = .ok a ∧ g.nTracesProp h = .ok N ∧ a.length = (h.get g.sd).length ∧
      (g.mode = .deterministic → N = g.nTraces * (h.get g.sd).length) ∧ (g.mode = .monteCarlo → N = g.nTraces) ∧
      ∀ m ∈ a, m.length = N ∧ ∀ r ∈ m, r.length = g.nSamples := by
  cases hmode : g.mode with
  | deterministic =>
    obtain ⟨a, h1, h2, h3, h4⟩ := draw_det e h g hmode hn randn
    refine ⟨a, g.nTraces * (h.get g.sd).length, h1, by unfold QuasiStatic.nTracesProp; rw [hmode], h2, fun _ => rfl,
      fun hc => (nomatch hc), fun m hm' => ⟨h3 m hm', fun r hr => ?_⟩⟩
    obtain ⟨i, hi⟩ := List.getElem?_of_mem hm'
    obtain ⟨j, hj⟩ := List.getElem?_of_mem hr
    have h5 := row_eq_some hi hj
    rw [h4] at h5
    split at h5
    · cases h5; simp
    · cases h5
  | monteCarlo =>
    refine ⟨_, g.nTraces, by unfold QuasiStatic.draw; rw [hmode], by unfold QuasiStatic.nTracesProp; rw [hmode], by simp,
      fun hc => (nomatch hc), fun _ => rfl, fun m hm' => ?_⟩
    obtain ⟨i, _, rfl⟩ := List.mem_mapIdx.1 hm'
    refine ⟨by simp, fun r hr => ?_⟩
    obtain ⟨j, _, rfl⟩ := List.mem_map.1 hr
    simp
  | other => exact absurd hmode hm

/-- **C71** (quasi-static): every trace is constant in time; in both modes. -/
theorem c71_constant (e : ℝ → ℝ) (h : Heap) (g : QuasiStatic) (hn : 0 < g.nTraces) (randn : Nat → Nat → ℝ) (a : Arr3)
    (ha : g.draw e h randn = .ok a) (m : List (List ℝ)) (hm : m ∈ a) (r : List ℝ) (hr : r ∈ m) (t t' : Nat) (x x' : ℝ)
    (hx : r[t]? = some x) (hx' : r[t']? = some x') : x = x' := by
  have hrep : ∃ v, r = List.replicate g.nSamples v := by
    cases hmode : g.mode with
    | deterministic =>
      obtain ⟨a', h1, _, _, h4⟩ := draw_det e h g hmode hn randn
      rw [h1] at ha
      cases ha
      obtain ⟨i, hi⟩ := List.getElem?_of_mem hm
      obtain ⟨j, hj⟩ := List.getElem?_of_mem hr
      have h5 := row_eq_some hi hj
      rw [h4] at h5
      split at h5
      · exact ⟨_, (Option.some.inj h5).symm⟩
      · cases h5
    | monteCarlo =>
      unfold QuasiStatic.draw at ha
      rw [hmode] at ha
      cases ha
      obtain ⟨i, _, rfl⟩ := List.mem_mapIdx.1 hm
      obtain ⟨j, _, rfl⟩ := List.mem_map.1 hr
      exact ⟨_, rfl⟩
    | other =>
      unfold QuasiStatic.draw at ha
      rw [hmode] at ha
      cases ha
  obtain ⟨v, rfl⟩ := hrep
  rw [List.getElem?_replicate] at hx hx'
  split at hx
  · split at hx'
    · cases hx; cases hx'; rfl
    · cases hx'
  · cases hx

/-- **C71** (one operator at a time): in deterministic mode no trace acts on two operators. -/
theorem c71_one_operator (e : ℝ → ℝ) (h : Heap) (g : QuasiStatic) (hmode : g.mode = .deterministic) (hn : 0 < g.nTraces)
    (randn : Nat → Nat → ℝ) (a : Arr3) (ha : g.draw e h randn = .ok a) (i i' j t t' : Nat) (x x' : ℝ) (hne : i ≠ i')
    (hx : (row a i j).bind (fun r => r[t]?) = some x) (hx' : (row a i' j).bind (fun r => r[t']?) = some x') : x = 0 ∨ x' = 0 := by
  obtain ⟨a', h1, _, _, h4⟩ := draw_det e h g hmode hn randn
  rw [h1] at ha
  cases ha
  rw [h4] at hx hx'
  by_cases hj : j / g.nTraces = i
  · right
    rw [if_neg (by omega : ¬ j / g.nTraces = i')] at hx'
    split at hx'
    · simp only [Option.bind_some, List.getElem?_replicate] at hx'
      split at hx'
      · exact (Option.some.inj hx').symm
      · cases hx'
    · cases hx'
  · left
    rw [if_neg hj] at hx
    split at hx
    · simp only [Option.bind_some, List.getElem?_replicate] at hx
      split at hx
      · exact (Option.some.inj hx).symm
      · cases hx
    · cases hx

/-- The values at time `t` of a block of traces. -/
def valuesAt (t : Nat) (m : List (List ℝ)) : List ℝ := m.map fun r => r.getD t 0

/-- **C71** (blocks): in deterministic mode the values of operator `i` are zero, except in its block, where the samples of its
standard deviation appear once each, in order. -/
theorem c71_blocks (e : ℝ → ℝ) (h : Heap) (g : QuasiStatic) (hmode : g.mode = .deterministic) (hn : 0 < g.nTraces)
    (randn : Nat → Nat → ℝ) (a : Arr3) (ha : g.draw e h randn = .ok a) (i : Nat) (m : List (List ℝ)) (hm : a[i]? = some m) (std : ℝ)
    (hstd : (h.get g.sd)[i]? = some std) (samples : List ℝ) (hs : sample1dim e std g.nTraces = .ok samples) (t : Nat)
    (ht : t < g.nSamples) :
    valuesAt t m = List.replicate (i * g.nTraces) 0 ++ samples ++
      List.replicate (((h.get g.sd).length - 1 - i) * g.nTraces) 0 := by
  obtain ⟨a', h1, h2, h3, h4⟩ := draw_det e h g hmode hn randn
  rw [h1] at ha
  cases ha
  rw [sample1dim_eq e std 0 _ hn] at hs
  cases hs
  have hi : i < (h.get g.sd).length := (List.getElem?_eq_some_iff.1 hstd).1
  have hml := h3 m (List.mem_of_getElem? hm)
  have hlen : g.nTraces * (h.get g.sd).length = i * g.nTraces + g.nTraces + ((h.get g.sd).length - 1 - i) * g.nTraces := by
    obtain ⟨k, hk⟩ : ∃ k, (h.get g.sd).length = i + 1 + k := ⟨(h.get g.sd).length - i - 1, by omega⟩
    rw [hk]
    have : i + 1 + k - 1 - i = k := by omega
    rw [this]
    ring
  refine List.ext_getElem? fun j => ?_
  have hrow := h4 i j
  unfold row at hrow
  rw [hm, Option.bind_some] at hrow
  unfold valuesAt
  rw [List.getElem?_map, hrow]
  have hgetD : (h.get g.sd).getD i 0 = std := by
    rw [List.getD_eq_getElem?_getD, hstd]; rfl
  rw [hgetD]
  by_cases hj : j < g.nTraces * (h.get g.sd).length
  · rw [if_pos ⟨hi, hj⟩, Option.map_some]
    rw [List.getD_eq_getElem _ _ (by simpa using ht), List.getElem_replicate]
    by_cases hb : j / g.nTraces = i
    · have h5 := Nat.div_add_mod j g.nTraces
      have h6 := Nat.mod_lt j hn
      rw [hb, Nat.mul_comm] at h5
      rw [if_pos hb, List.append_assoc, List.getElem?_append_right (by simp; omega), List.getElem?_append_left (by simp; omega)]
      simp only [List.length_replicate]
      have h7 : j - i * g.nTraces = j % g.nTraces := by omega
      rw [h7, List.getElem?_map, List.getElem?_range h6]
      rfl
    · rw [if_neg hb, List.append_assoc]
      by_cases hlt : j < i * g.nTraces
      · rw [List.getElem?_append_left (by simpa using hlt), List.getElem?_replicate, if_pos hlt]
      · have hge : i * g.nTraces + g.nTraces ≤ j := by
          by_contra hc
          apply hb
          exact Nat.div_eq_of_lt_le (by omega) (by rw [Nat.succ_mul]; omega)
        rw [List.getElem?_append_right (by simp; omega), List.getElem?_append_right (by simp; omega), List.getElem?_replicate,
          if_pos (by simp; omega)]
  · rw [if_neg (fun hc => hj hc.2), Option.map_none, eq_comm, List.getElem?_eq_none_iff]
    simp
    omega

/-- An unknown sampling mode is a ValueError, for the samples and for the number of traces. -/
theorem c71_unknown_mode (e : ℝ → ℝ) (h : Heap) (g : QuasiStatic) (hm : g.mode = .other) (randn : Nat → Nat → ℝ) :
    g.draw e h randn = .error .valueError ∧ g.nTracesProp h = .error .valueError := by
  unfold QuasiStatic.draw QuasiStatic.nTracesProp
  rw [hm]
  exact ⟨rfl, rfl⟩

/-- **C71** In Monte Carlo mode trace `j` of operator `i` has at all times the value of its own standard normal number times the
standard deviation of operator `i`. -/
theorem c71_monte_carlo (e : ℝ → ℝ) (h : Heap) (g : QuasiStatic) (hmode : g.mode = .monteCarlo) (randn : Nat → Nat → ℝ) (a : Arr3)
    (ha : g.draw e h randn = .ok a) (i j t : Nat) (std : ℝ) (hstd : (h.get g.sd)[i]? = some std) (hj : j < g.nTraces)
    (ht : t < g.nSamples) : (row a i j).bind (fun r => r[t]?) = some (std * randn i j) := by
  simp only [QuasiStatic.draw, hmode, Except.ok.injEq] at ha
  subst ha
  simp [row, List.getElem?_mapIdx, hstd, hj, ht]

/-- Two operators, two traces of three samples. -/
example : ∃ a, QuasiStatic.draw (fun x => x) [[1, 5]] ⟨0, 3, 2, none, true, .monteCarlo⟩ (fun i j => i + 2 * j) = .ok a ∧
    (row a 1 1).bind (fun r => r[2]?) = some 15 := by
  refine ⟨_, rfl, ?_⟩
  rw [c71_monte_carlo (fun x => x) [[1, 5]] ⟨0, 3, 2, none, true, .monteCarlo⟩ rfl (fun i j => i + 2 * j) _ rfl 1 1 2 5 rfl
    (by norm_num) (by norm_num)]
  norm_num

/-! ## The correction of the standard deviations -/

/-- The corrected standard deviation. -/
noncomputable def corrected (e : ℝ → ℝ) (n : Nat) (s : ℝ) : ℝ := s * (s / (|s| * √2 * √(V e n)))

theorem correctOne_eq {e : ℝ → ℝ} (he : IsErfinv e) {n : Nat} (hn : 0 < n) (l : List ℝ) (i : Nat) (l' : List ℝ)
    (h : correctOne e n l i = .ok l') : l' = l.set i (corrected e n (l.getD i 0)) ∧ tiny ≤ |l.getD i 0| * √2 * √(V e n) := by
  unfold correctOne at h
  have hs := sample1dim_eq e (l.getD i 0) 0 n hn
  rw [hs] at h
  simp only at h
  rw [npStd_samples he _ 0 n hn _ hs] at h
  split at h
  · cases h
  · next hlt => cases h; exact ⟨rfl, not_lt.1 hlt⟩

theorem correctLoop_eq {e : ℝ → ℝ} (he : IsErfinv e) {n : Nat} (hn : 0 < n) : ∀ (k : Nat) (l l' : List ℝ) (i0 : Nat),
    correctLoop e n l (List.range' i0 k) = (none, l') → l'.length = l.length ∧ ∀ i, i < l.length →
      l'.getD i 0 = (if i0 ≤ i ∧ i < i0 + k then corrected e n (l.getD i 0) else l.getD i 0) ∧
      (i0 ≤ i ∧ i < i0 + k → tiny ≤ |l.getD i 0| * √2 * √(V e n))
  | 0, l, l', i0, h => by
    cases h
    refine ⟨rfl, fun i _ => ⟨by rw [if_neg (by omega)], fun hc => by omega⟩⟩
  | k + 1, l, l', i0, h => by
    rw [List.range'_succ] at h
    unfold correctLoop at h
    split at h
    · cases h
    · next l1 h1 =>
      obtain ⟨rfl, ht⟩ := correctOne_eq he hn l i0 l1 h1
      obtain ⟨h2, h3⟩ := correctLoop_eq he hn k _ l' (i0 + 1) h
      refine ⟨by rw [h2, List.length_set], fun i hi => ?_⟩
      have h4 := h3 i (by rw [List.length_set]; exact hi)
      have hset : (l.set i0 (corrected e n (l.getD i0 0))).getD i 0 = if i = i0 then corrected e n (l.getD i0 0) else l.getD i 0 := by
        rw [List.getD_eq_getElem?_getD, List.getElem?_set]
        by_cases hii : i0 = i
        · subst hii; simp [hi]
        · rw [if_neg hii, if_neg (fun hc => hii hc.symm), List.getD_eq_getElem?_getD]
      rw [hset] at h4
      by_cases hii : i = i0
      · subst hii
        rw [if_pos ⟨le_refl _, by omega⟩]
        rw [if_pos rfl, if_neg (by omega)] at h4
        exact ⟨h4.1, fun _ => ht⟩
      · rw [if_neg hii] at h4
        refine ⟨?_, fun hc => h4.2 (by omega)⟩
        rw [h4.1]
        by_cases hc : i0 + 1 ≤ i ∧ i < i0 + 1 + k
        · rw [if_pos hc, if_pos (by omega)]
        · rw [if_neg hc, if_neg (by omega)]

theorem heap_get_set {h : Heap} {a : Nat} (ha : a < h.length) (l : List ℝ) : (Heap.get (h.set a l) a) = l := by
  unfold Heap.get
  rw [List.getD_eq_getElem?_getD, List.getElem?_set_self ha]
  rfl

/-- What a successful construction with correction leaves behind. -/
theorem new_corrected {e : ℝ → ℝ} (he : IsErfinv e) (h : Heap) (sd nSamples nTraces : Nat) (samples : Option Arr3) (redraw : Bool)
    (hsd : sd < h.length) (hn : 0 < nTraces) (hl : 0 < (h.get sd).length) (g : QuasiStatic) (h' : Heap)
    (hnew : QuasiStatic.new e h sd nSamples nTraces samples redraw true .deterministic = (.ok g, h')) :
    g = ⟨sd, nSamples, nTraces, samples, redraw, .deterministic⟩ ∧ 2 ≤ nTraces * (h.get sd).length ∧
    (h'.get sd).length = (h.get sd).length ∧ ∀ i, i < (h.get sd).length →
      (h'.get sd).getD i 0 = corrected e (nTraces * (h.get sd).length) ((h.get sd).getD i 0) ∧
      tiny ≤ |(h.get sd).getD i 0| * √2 * √(V e (nTraces * (h.get sd).length)) := by
  have hN : 0 < nTraces * (h.get sd).length := Nat.mul_pos hn hl
  unfold QuasiStatic.new at hnew
  simp only [if_true, QuasiStatic.nTracesProp] at hnew
  split at hnew
  · cases hnew
  · next h1 =>
    split at hnew
    · cases hnew
    · next l hloop =>
      simp only [Prod.mk.injEq, Except.ok.injEq] at hnew
      obtain ⟨rfl, rfl⟩ := hnew
      rw [List.range_eq_range'] at hloop
      obtain ⟨h2, h3⟩ := correctLoop_eq he hN _ _ l 0 hloop
      refine ⟨rfl, by omega, by rw [heap_get_set hsd, h2], fun i hi => ?_⟩
      rw [heap_get_set hsd]
      have := h3 i hi
      rw [if_pos (by omega)] at this
      exact ⟨this.1, this.2 (by omega)⟩

theorem sqrt_V_pos {e : ℝ → ℝ} (he : IsErfinv e) {n : Nat} (hn : 2 ≤ n) : 0 < √2 * √(V e n) :=
  mul_pos (by positivity) (Real.sqrt_pos.2 (V_pos he hn))

theorem corrected_pos {e : ℝ → ℝ} {n : Nat} {s : ℝ} (hs : 0 < s) : corrected e n s = s / (√2 * √(V e n)) := by
  unfold corrected
  rw [abs_of_pos hs]
  field_simp

/-- The values of operator `i` in its own traces, at time `t`. -/
def ownValues (g : QuasiStatic) (i t : Nat) (m : List (List ℝ)) : List ℝ := ((valuesAt t m).drop (i * g.nTraces)).take g.nTraces

/-- **C73**, the exact value: after the correction the samples of operator `i` have the standard deviation
`s * √(V n / V (n m))`, where `n` is the number of traces per operator and `m` the number of operators. -/
theorem c73_value {e : ℝ → ℝ} (he : IsErfinv e) (h : Heap) (sd nSamples nTraces : Nat) (samples : Option Arr3) (redraw : Bool)
    (hsd : sd < h.length) (hn : 0 < nTraces) (g : QuasiStatic) (h' : Heap)
    (hnew : QuasiStatic.new e h sd nSamples nTraces samples redraw true .deterministic = (.ok g, h')) (randn : Nat → Nat → ℝ)
    (a : Arr3) (ha : g.draw e h' randn = .ok a) (i : Nat) (s : ℝ) (hs : (h.get sd)[i]? = some s) (hpos : 0 < s)
    (m : List (List ℝ)) (hm : a[i]? = some m) (t : Nat) (ht : t < nSamples) :
    npStd (ownValues g i t m) = s * (√(V e nTraces) / √(V e (nTraces * (h.get sd).length))) := by
  have hi : i < (h.get sd).length := (List.getElem?_eq_some_iff.1 hs).1
  obtain ⟨rfl, hN, hlen, hval⟩ := new_corrected he h sd nSamples nTraces samples redraw hsd hn (by omega) g h' hnew
  have hsi : (h.get sd).getD i 0 = s := by rw [List.getD_eq_getElem?_getD, hs]; rfl
  obtain ⟨h1, h2⟩ := hval i hi
  rw [hsi, corrected_pos hpos] at h1
  have hstd : (h'.get sd)[i]? = some (s / (√2 * √(V e (nTraces * (h.get sd).length)))) := by
    rw [List.getElem?_eq_getElem (by omega), ← List.getD_eq_getElem _ 0, h1]
  have hsmp := sample1dim_eq e (s / (√2 * √(V e (nTraces * (h.get sd).length)))) 0 nTraces hn
  have hb := c71_blocks e h' ⟨sd, nSamples, nTraces, samples, redraw, .deterministic⟩ rfl hn randn a ha i m hm _ hstd _ hsmp t ht
  have hown : ownValues ⟨sd, nSamples, nTraces, samples, redraw, .deterministic⟩ i t m =
      (List.range nTraces).map fun i => s / (√2 * √(V e (nTraces * (h.get sd).length))) * √2 * e (pt nTraces i) + 0 := by
    unfold ownValues
    rw [hb, List.append_assoc, List.drop_left' (by simp), List.take_left' (by simp)]
  rw [hown, npStd_samples he _ 0 nTraces hn _ hsmp]
  have hp := sqrt_V_pos he hN
  rw [abs_of_pos (div_pos hpos hp)]
  have h3 : √(V e (nTraces * (h.get sd).length)) ≠ 0 := (Real.sqrt_pos.2 (V_pos he hN)).ne'
  field_simp

/-- **C73** (partial): for a single operator the samples have exactly the requested standard deviation.
Missing: more than one operator, see `c73_violated`. -/
theorem c73_one_operator_partial {e : ℝ → ℝ} (he : IsErfinv e) (h : Heap) (sd nSamples nTraces : Nat) (samples : Option Arr3)
    (redraw : Bool) (hsd : sd < h.length) (hn : 0 < nTraces) (g : QuasiStatic) (h' : Heap)
    (hnew : QuasiStatic.new e h sd nSamples nTraces samples redraw true .deterministic = (.ok g, h')) (randn : Nat → Nat → ℝ)
    (a : Arr3) (ha : g.draw e h' randn = .ok a) (s : ℝ) (hs : h.get sd = [s]) (hpos : 0 < s)
    (m : List (List ℝ)) (hm : a[0]? = some m) (t : Nat) (ht : t < nSamples) : npStd (valuesAt t m) = s := by
  have h1 := c73_value he h sd nSamples nTraces samples redraw hsd hn g h' hnew randn a ha 0 s (by rw [hs]; rfl) hpos m hm t ht
  obtain ⟨rfl, hN, hlen, -⟩ := new_corrected he h sd nSamples nTraces samples redraw hsd hn (by rw [hs]; simp) g h' hnew
  rw [hs] at h1 hN hlen
  simp only [List.length_singleton, mul_one] at h1 hN
  have h3 : √(V e nTraces) ≠ 0 := (Real.sqrt_pos.2 (V_pos he hN)).ne'
  rw [div_self h3, mul_one] at h1
  obtain ⟨a', k1, k2, k3, -⟩ := draw_det e h' ⟨sd, nSamples, nTraces, samples, redraw, .deterministic⟩ rfl hn randn
  rw [k1] at ha
  cases ha
  have k4 := k3 m (List.mem_of_getElem? hm)
  have hown : ownValues ⟨sd, nSamples, nTraces, samples, redraw, .deterministic⟩ 0 t m = valuesAt t m := by
    unfold ownValues
    rw [Nat.zero_mul, List.drop_zero, List.take_of_length_le]
    simp only [valuesAt, List.length_map, k4]
    simp only [hlen, List.length_singleton, mul_one, le_refl]
  rw [← hown]
  exact h1

/-- **C73** fails for every list of two or more positive standard deviations and every number of traces: the samples of every
operator have a standard deviation strictly below the requested one, because the correction factor is calculated for the total
number of traces. -/
theorem c73_violated {e : ℝ → ℝ} (he : IsErfinv e) (h : Heap) (sd nSamples nTraces : Nat) (samples : Option Arr3) (redraw : Bool)
    (hsd : sd < h.length) (hn : 0 < nTraces) (hl : 2 ≤ (h.get sd).length) (g : QuasiStatic) (h' : Heap)
    (hnew : QuasiStatic.new e h sd nSamples nTraces samples redraw true .deterministic = (.ok g, h')) (randn : Nat → Nat → ℝ)
    (a : Arr3) (ha : g.draw e h' randn = .ok a) (i : Nat) (s : ℝ) (hs : (h.get sd)[i]? = some s) (hpos : 0 < s)
    (m : List (List ℝ)) (hm : a[i]? = some m) (t : Nat) (ht : t < nSamples) : npStd (ownValues g i t m) < s := by
  rw [c73_value he h sd nSamples nTraces samples redraw hsd hn g h' hnew randn a ha i s hs hpos m hm t ht]
  have h1 := V_refine he hn hl
  have h2 : √(V e nTraces) < √(V e (nTraces * (h.get sd).length)) := Real.sqrt_lt_sqrt (V_nonneg e _) h1
  have h3 : 0 < √(V e (nTraces * (h.get sd).length)) := lt_of_le_of_lt (Real.sqrt_nonneg _) h2
  have h4 : √(V e nTraces) / √(V e (nTraces * (h.get sd).length)) < 1 := (div_lt_one h3).2 h2
  nlinarith

/-- In particular, with one trace per operator the construction succeeds, and there is no noise at all. -/
theorem c73_no_noise {e : ℝ → ℝ} (he : IsErfinv e) (h : Heap) (sd nSamples : Nat) (samples : Option Arr3) (redraw : Bool)
    (hsd : sd < h.length) (g : QuasiStatic) (h' : Heap)
    (hnew : QuasiStatic.new e h sd nSamples 1 samples redraw true .deterministic = (.ok g, h')) (randn : Nat → Nat → ℝ)
    (a : Arr3) (ha : g.draw e h' randn = .ok a) (m : List (List ℝ)) (hm : m ∈ a) (r : List ℝ) (hr : r ∈ m) (x : ℝ) (hx : x ∈ r) :
    x = 0 := by
  have hg : g = ⟨sd, nSamples, 1, samples, redraw, .deterministic⟩ := by
    by_cases hl : 0 < (h.get sd).length
    · exact (new_corrected he h sd nSamples 1 samples redraw hsd one_pos hl g h' hnew).1
    · have : (h.get sd).length = 0 := by omega
      unfold QuasiStatic.new at hnew
      simp [QuasiStatic.nTracesProp, this, correctLoop] at hnew
      exact hnew.1.symm
  subst hg
  obtain ⟨a', k1, k2, k3, k4⟩ := draw_det e h' ⟨sd, nSamples, 1, samples, redraw, .deterministic⟩ rfl one_pos randn
  rw [k1] at ha
  cases ha
  obtain ⟨i, hi⟩ := List.getElem?_of_mem hm
  obtain ⟨j, hj⟩ := List.getElem?_of_mem hr
  have h5 := row_eq_some hi hj
  rw [k4] at h5
  split at h5
  · cases h5
    rw [List.mem_replicate] at hx
    rw [hx.2]
    split
    · simp [smp, pt, Nat.mod_one, he.zero]
    · rfl
  · cases h5

/-! ## C74 -/

/-- **C74** fails whenever the deviations are positive: the construction strictly increases every entry of the caller's list. -/
theorem c74_violated {e : ℝ → ℝ} (he : IsErfinv e) (h : Heap) (sd nSamples nTraces : Nat) (samples : Option Arr3) (redraw : Bool)
    (hsd : sd < h.length) (hn : 0 < nTraces) (g : QuasiStatic) (h' : Heap)
    (hnew : QuasiStatic.new e h sd nSamples nTraces samples redraw true .deterministic = (.ok g, h')) (i : Nat) (s : ℝ)
    (hs : (h.get sd)[i]? = some s) (hpos : 0 < s) : ∃ s', (h'.get sd)[i]? = some s' ∧ s < s' := by
  have hi : i < (h.get sd).length := (List.getElem?_eq_some_iff.1 hs).1
  obtain ⟨rfl, hN, hlen, hval⟩ := new_corrected he h sd nSamples nTraces samples redraw hsd hn (by omega) g h' hnew
  have hsi : (h.get sd).getD i 0 = s := by rw [List.getD_eq_getElem?_getD, hs]; rfl
  obtain ⟨h1, h2⟩ := hval i hi
  rw [hsi, corrected_pos hpos] at h1
  refine ⟨s / (√2 * √(V e (nTraces * (h.get sd).length))), ?_, ?_⟩
  · rw [List.getElem?_eq_getElem (by omega), ← List.getD_eq_getElem _ 0, h1]
  · have hp := sqrt_V_pos he hN
    rw [lt_div_iff₀ hp]
    have hlt : √2 * √(V e (nTraces * (h.get sd).length)) < 1 := by
      rw [← Real.sqrt_mul (by norm_num)]
      have := V_lt_half he (n := nTraces * (h.get sd).length) (by omega)
      rw [Real.sqrt_lt' one_pos]
      linarith
    nlinarith

/-- **C74** (partial): without the correction, and in Monte Carlo mode, no list of the caller is changed, whether or not the
constructor raises.  Missing: the correction in deterministic mode, see `c74_violated`. -/
theorem c74_no_correction_partial (e : ℝ → ℝ) (h : Heap) (sd nSamples nTraces : Nat) (samples : Option Arr3) (redraw correct : Bool)
    (mode : Mode) (hc : correct = false ∨ mode ≠ .deterministic) :
    (QuasiStatic.new e h sd nSamples nTraces samples redraw correct mode).2 = h := by
  unfold QuasiStatic.new
  rcases hc with rfl | hc
  · rfl
  · cases mode
    · exact absurd rfl hc
    · simp only [QuasiStatic.nTracesProp]
      cases correct
      · rfl
      · simp only [if_true]
        split <;> rfl
    · cases correct <;> rfl

/-- No other list is ever changed. -/
theorem c74_other_lists (e : ℝ → ℝ) (h : Heap) (sd nSamples nTraces : Nat) (samples : Option Arr3) (redraw correct : Bool)
    (mode : Mode) (b : Nat) (hb : b ≠ sd) :
    (QuasiStatic.new e h sd nSamples nTraces samples redraw correct mode).2.get b = h.get b := by
  by_cases hc : correct = false ∨ mode ≠ .deterministic
  · rw [c74_no_correction_partial e h sd nSamples nTraces samples redraw correct mode hc]
  · push Not at hc
    obtain ⟨hc, rfl⟩ := hc
    have hc : correct = true := by simpa using hc
    subst hc
    have hset : ∀ l : List ℝ, Heap.get (h.set sd l) b = h.get b := by
      intro l
      unfold Heap.get
      rw [List.getD_eq_getElem?_getD, List.getElem?_set_ne hb.symm, List.getD_eq_getElem?_getD]
    unfold QuasiStatic.new
    simp only [if_true, QuasiStatic.nTracesProp]
    split
    · rfl
    · split
      · exact hset _
      · exact hset _

/-- With four samples the estimate is far above the threshold. -/
theorem low_bound {e : ℝ → ℝ} (he : IsErfinv e) : tiny ≤ |(1 : ℝ)| * √2 * √(V e 4) := by
  have h1 : V e 2 < V e (2 * 2) := V_refine he (by norm_num) (by norm_num)
  have hv2 : V e 2 = e (1 / 2) ^ 2 := by
    have e0 : pt 2 0 = -(1 / 2) := by norm_num [pt]
    have e1 : pt 2 1 = 1 / 2 := by norm_num [pt]
    simp only [V, List.range_succ, List.range_zero, List.nil_append, List.map_append, List.map_cons, List.map_nil, List.sum_append,
      List.sum_cons, List.sum_nil, e0, e1, he.odd (y := 1 / 2) (by norm_num) (by norm_num)]
    push_cast
    ring
  -- erf x ≤ 2 x, hence e (1/2) ≥ 1/4
  have herf : e (1 / 2) ≥ 1 / 4 := by
    by_contra hc
    push Not at hc
    have h3 := erf_strictMono hc
    rw [he _ (by norm_num) (by norm_num)] at h3
    have h4 : erf (1 / 4) ≤ 1 / 2 := by
      unfold erf
      have hi : ∫ t in (0 : ℝ)..(1 / 4), exp (-t ^ 2) ≤ ∫ t in (0 : ℝ)..(1 / 4), (1 : ℝ) := by
        refine intervalIntegral.integral_mono_on (by norm_num) (cont_gauss.intervalIntegrable _ _) (by simp) fun t _ => ?_
        rw [Real.exp_le_one_iff]
        nlinarith [sq_nonneg t]
      simp only [intervalIntegral.integral_const, sub_zero, smul_eq_mul, mul_one] at hi
      have hpi : 1 ≤ √π := by
        rw [Real.one_le_sqrt]
        have := Real.two_le_pi
        linarith
      have h5 : 2 / √π ≤ 2 := by
        rw [div_le_iff₀ (by positivity)]; linarith
      have h6 : 0 ≤ ∫ t in (0 : ℝ)..(1 / 4), exp (-t ^ 2) :=
        intervalIntegral.integral_nonneg (by norm_num) fun t _ => (exp_pos _).le
      have h7 : 0 ≤ 2 / √π := by positivity
      nlinarith
    linarith
  have h8 : (1 : ℝ) / 16 ≤ V e 4 := by
    rw [hv2] at h1
    have : (1 : ℝ) / 16 ≤ e (1 / 2) ^ 2 := by nlinarith
    linarith
  have h9 : (1 : ℝ) / 4 ≤ √(V e 4) := by
    rw [Real.le_sqrt' (by norm_num)]
    linarith
  have h10 : (1 : ℝ) ≤ √2 := by rw [Real.one_le_sqrt]; norm_num
  have h11 : tiny ≤ 1 / 4 := by unfold tiny; norm_num
  rw [abs_one, one_mul]
  nlinarith

/-- The loop passes when all estimates are above the threshold. -/
theorem correctLoop_ok {e : ℝ → ℝ} (he : IsErfinv e) {n : Nat} (hn : 0 < n) : ∀ (is : List Nat) (l : List ℝ), is.Nodup →
    (∀ i ∈ is, tiny ≤ |l.getD i 0| * √2 * √(V e n)) → ∃ l', correctLoop e n l is = (none, l')
  | [], l, _, _ => ⟨l, rfl⟩
  | i :: is, l, hnd, h => by
    rw [List.nodup_cons] at hnd
    have hs := sample1dim_eq e (l.getD i 0) 0 n hn
    have h1 : correctOne e n l i = .ok (l.set i (corrected e n (l.getD i 0))) := by
      unfold correctOne
      rw [hs]
      simp only
      rw [npStd_samples he _ 0 n hn _ hs, if_neg (not_lt.2 (h i (by simp)))]
      rfl
    unfold correctLoop
    rw [h1]
    refine correctLoop_ok he hn is _ hnd.2 fun j hj => ?_
    have hne : i ≠ j := fun hc => hnd.1 (hc ▸ hj)
    have : (l.set i (corrected e n (l.getD i 0))).getD j 0 = l.getD j 0 := by
      rw [List.getD_eq_getElem?_getD, List.getElem?_set_ne hne, List.getD_eq_getElem?_getD]
    rw [this]
    exact h j (by simp [hj])

/-- When the construction with correction succeeds: there are at least two traces and all estimates are above the threshold. -/
theorem c73_succeeds {e : ℝ → ℝ} (he : IsErfinv e) (h : Heap) (sd nSamples nTraces : Nat) (samples : Option Arr3) (redraw : Bool)
    (hsd : sd < h.length) (hn : 0 < nTraces) (hl : 0 < (h.get sd).length) :
    (∃ g h', QuasiStatic.new e h sd nSamples nTraces samples redraw true .deterministic = (.ok g, h')) ↔
      2 ≤ nTraces * (h.get sd).length ∧ ∀ i, i < (h.get sd).length →
        1 / 10 ^ 20 ≤ |(h.get sd).getD i 0| * √2 * √(V e (nTraces * (h.get sd).length)) := by
  rw [show (1 / 10 ^ 20 : ℝ) = tiny from rfl]
  constructor
  · rintro ⟨g, h', hnew⟩
    obtain ⟨-, h1, -, h2⟩ := new_corrected he h sd nSamples nTraces samples redraw hsd hn hl g h' hnew
    exact ⟨h1, fun i hi => (h2 i hi).2⟩
  · rintro ⟨h1, h2⟩
    obtain ⟨l', hl'⟩ := correctLoop_ok he (n := nTraces * (h.get sd).length) (by omega) (List.range (h.get sd).length) (h.get sd)
      List.nodup_range fun i hi => h2 i (by simpa using hi)
    unfold QuasiStatic.new
    simp only [if_true, QuasiStatic.nTracesProp]
    rw [if_neg (by omega), hl']
    exact ⟨_, _, rfl⟩

/-- The hypotheses of the theorems on the correction are met: two operators with unit deviations and two traces each. -/
example : ∃ e, IsErfinv e ∧ ∃ g h', QuasiStatic.new e [[1, 1]] 0 3 2 none true true .deterministic = (.ok g, h') ∧
    g.mode = .deterministic ∧ ∃ a, g.draw e h' (fun _ _ => 0) = .ok a ∧ a.length = 2 := by
  obtain ⟨e, he⟩ := exists_erfinv
  refine ⟨e, he, ?_⟩
  have hl : (Heap.get [[1, 1]] 0) = [1, 1] := rfl
  obtain ⟨g, h', hnew⟩ := (c73_succeeds he [[1, 1]] 0 3 2 none true (by simp) (by norm_num) (by rw [hl]; simp)).2 (by
    rw [hl]
    refine ⟨by simp, fun i hi => ?_⟩
    have h1 : ([1, 1] : List ℝ).getD i 0 = 1 := by
      simp only [List.length_cons, List.length_nil] at hi
      interval_cases i <;> rfl
    rw [h1]
    exact low_bound he)
  obtain ⟨rfl, -, hlen, -⟩ := new_corrected he [[1, 1]] 0 3 2 none true (by simp) (by norm_num) (by rw [hl]; simp) g h' hnew
  obtain ⟨a, ha, hal, -⟩ := draw_det e h' ⟨0, 3, 2, none, true, .deterministic⟩ rfl (by norm_num) (fun _ _ => 0)
  exact ⟨_, h', hnew, rfl, a, ha, by rw [hal, hlen]; rfl⟩

/-- **C74** also fails when the constructor raises: with a zero in second position the first entry has already been changed. -/
theorem c74_violated_error {e : ℝ → ℝ} (he : IsErfinv e) :
    ∃ h' s, QuasiStatic.new e [[1, 0]] 0 1 2 none true true .deterministic = (.error .runtimeError, h') ∧
      h'.get 0 = [s, 0] ∧ s ≠ 1 := by
  have hV : 0 < V e 4 := V_pos he (by norm_num)
  have hhalf : V e 4 < 1 / 2 := V_lt_half he (by norm_num)
  have hlow := low_bound he
  have hs1 := sample1dim_eq e 1 0 4 (by norm_num)
  have hs0 := sample1dim_eq e 0 0 4 (by norm_num)
  have h1 : correctOne e 4 [1, 0] 0 = .ok [1 * (1 / (|1| * √2 * √(V e 4))), 0] := by
    unfold correctOne
    simp only [List.getD_cons_zero]
    rw [hs1]
    simp only
    rw [npStd_samples he 1 0 4 (by norm_num) _ hs1, if_neg (not_lt.2 hlow)]
    rfl
  have h2 : ∀ s, correctOne e 4 [s, 0] 1 = .error .runtimeError := by
    intro s
    unfold correctOne
    simp only [List.getD_cons_succ, List.getD_cons_zero]
    rw [hs0]
    simp only
    rw [npStd_samples he 0 0 4 (by norm_num) _ hs0, if_pos]
    simp only [abs_zero, zero_mul]
    unfold tiny
    norm_num
  refine ⟨[[1 * (1 / (|1| * √2 * √(V e 4))), 0]], 1 * (1 / (|1| * √2 * √(V e 4))), ?_, rfl, ?_⟩
  · unfold QuasiStatic.new
    simp only [if_true, QuasiStatic.nTracesProp, Heap.get, List.getD_cons_zero, List.length_cons, List.length_nil, Nat.zero_add,
      Nat.reduceAdd, Nat.reduceMul]
    rw [if_neg (by norm_num)]
    have hr : List.range 2 = [0, 1] := rfl
    rw [hr]
    unfold correctLoop
    rw [h1]
    simp only
    unfold correctLoop
    rw [h2]
    rfl
  · intro hc
    have hq : √2 * √(V e 4) = 1 := by
      have hp := sqrt_V_pos he (n := 4) (by norm_num)
      rw [abs_one, one_mul, one_mul] at hc
      field_simp at hc
      linarith
    rw [← Real.sqrt_mul (by norm_num), Real.sqrt_eq_one] at hq
    linarith

end Verif.Noise
