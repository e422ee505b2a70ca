import Verif.Noise.Gauss
import Mathlib.Order.Monotone.Union

/-!
# The standard deviation of the deterministic samples

`V e n` is half the variance of `n` samples with unit deviation.  Two facts: it grows strictly under refinement
(`V e n < V e (n * m)`), and it is always below its limit one half.
-/

namespace Verif.Noise
open Verif Real Set Filter

/-- The mean of the squares of the inverse error function at the sample points. -/
noncomputable def V (e : ℝ → ℝ) (n : Nat) : ℝ := ((List.range n).map fun i => e (pt n i) ^ 2).sum / n

theorem V_nonneg (e : ℝ → ℝ) (n : Nat) : 0 ≤ V e n := by
  refine div_nonneg (List.sum_nonneg fun x hx => ?_) (Nat.cast_nonneg n)
  obtain ⟨i, _, rfl⟩ := List.mem_map.1 hx
  exact sq_nonneg _

/-- `np.std` of the samples. -/
theorem npStd_samples {e : ℝ → ℝ} (he : IsErfinv e) (std mean : ℝ) (n : Nat) (hn : 0 < n) (l : List ℝ)
    (h : sample1dim e std n mean = .ok l) : npStd l = |std| * √2 * √(V e n) := by
  rw [sample1dim_eq e std mean n hn] at h
  cases h
  have hn' : (n : ℝ) ≠ 0 := by
    have : n ≠ 0 := by omega
    exact_mod_cast this
  have hmean : npMean ((List.range n).map fun i => std * √2 * e (pt n i) + mean) = mean := by
    unfold npMean
    rw [sum_affine, sum_erfinv he]
    simp only [mul_zero, List.length_range, zero_add, List.length_map]
    field_simp
  unfold npStd
  rw [hmean]
  have hsq : (√2 : ℝ) ^ 2 = 2 := Real.sq_sqrt (by norm_num)
  have : npMean (((List.range n).map fun i => std * √2 * e (pt n i) + mean).map fun x => (x - mean) ^ 2) = std ^ 2 * 2 * V e n := by
    unfold npMean V
    simp only [List.map_map, List.length_map, List.length_range]
    have h2 : ((fun x => (x - mean) ^ 2) ∘ fun i => std * √2 * e (pt n i) + mean) = fun i => (std ^ 2 * 2) * e (pt n i) ^ 2 + 0 := by
      funext i
      simp only [Function.comp_apply]
      linear_combination (std ^ 2 * e (pt n i) ^ 2) * hsq
    rw [h2, sum_affine]
    simp only [mul_zero, add_zero]
    ring
  rw [this, Real.sqrt_mul (by positivity), Real.sqrt_mul (by positivity), Real.sqrt_sq_eq_abs]

/-! ## Refinement -/

theorem pt_fine {n m : Nat} (hn : 0 < n) (hm : 0 < m) (i j : Nat) :
    pt (n * m) (i * m + j) = pt n i + (2 * (j : ℝ) + 1 - m) / (n * m) := by
  have h1 : (n : ℝ) ≠ 0 := by exact_mod_cast (by omega : n ≠ 0)
  have h2 : (m : ℝ) ≠ 0 := by exact_mod_cast (by omega : m ≠ 0)
  unfold pt
  push_cast
  field_simp
  ring

theorem range_mul_map (f : Nat → ℝ) (m : Nat) : ∀ n : Nat,
    ((List.range (n * m)).map f).sum = ((List.range n).map fun i => ((List.range m).map fun j => f (i * m + j)).sum).sum
  | 0 => by simp
  | n + 1 => by
    rw [List.range_succ, List.map_append, List.sum_append, ← range_mul_map f m n, Nat.succ_mul, List.range_add, List.map_append,
      List.sum_append]
    simp [List.map_map, Function.comp_def]

theorem sum_lin (a b : ℝ) : ∀ m : Nat, ((List.range m).map fun (j : Nat) => a * (2 * (j : ℝ) + 1) + b).sum = a * m ^ 2 + m * b
  | 0 => by simp
  | m + 1 => by
    rw [List.range_succ, List.map_append, List.sum_append, sum_lin a b m]
    simp
    ring

theorem sum_lt_sum {f g : Nat → ℝ} : ∀ (n : Nat), (∀ i < n, f i ≤ g i) → (∃ i < n, f i < g i) →
    ((List.range n).map f).sum < ((List.range n).map g).sum
  | 0, _, ⟨_, h, _⟩ => absurd h (by omega)
  | n + 1, hle, ⟨i, hi, hlt⟩ => by
    rw [List.range_succ, List.map_append, List.map_append, List.sum_append, List.sum_append]
    simp only [List.map_cons, List.map_nil, List.sum_cons, List.sum_nil, add_zero]
    by_cases hin : i = n
    · subst hin
      have : ((List.range i).map f).sum ≤ ((List.range i).map g).sum := by
        refine List.sum_le_sum fun j hj => hle j ?_
        have : j < i := by simpa using hj
        omega
      linarith
    · have h1 := sum_lt_sum n (fun j hj => hle j (by omega)) ⟨i, by omega, hlt⟩
      have h2 := hle n (by omega)
      linarith

/-- One cell: the mean of the squares at the points of the refinement exceeds the square at the midpoint. -/
theorem cell_lt {e : ℝ → ℝ} (he : IsErfinv e) {n m : Nat} (hm : 2 ≤ m) {i : Nat} (hi : i < n) :
    m * e (pt n i) ^ 2 < ((List.range m).map fun j => e (pt (n * m) (i * m + j)) ^ 2).sum := by
  have hn : 0 < n := by omega
  have hnm : 0 < n * m := Nat.mul_pos hn (by omega)
  have h1 : (n : ℝ) ≠ 0 := by exact_mod_cast (by omega : n ≠ 0)
  have h2 : (m : ℝ) ≠ 0 := by exact_mod_cast (by omega : m ≠ 0)
  set x0 := e (pt n i) with hx0
  set K := √π * (x0 * exp (x0 ^ 2)) with hK
  have hb : ∀ j < m, i * m + j < n * m := by
    intro j hj
    have : (i + 1) * m ≤ n * m := Nat.mul_le_mul_right m hi
    rw [Nat.succ_mul] at this
    omega
  have herf0 : erf x0 = pt n i := he _ (pt_gt hn) (pt_lt hi)
  have herf : ∀ j < m, erf (e (pt (n * m) (i * m + j))) = pt n i + (2 * (j : ℝ) + 1 - m) / (n * m) := by
    intro j hj
    rw [he _ (pt_gt hnm) (pt_lt (hb j hj)), pt_fine hn (by omega)]
  have hlt : ∀ j < m, 2 * (j : ℝ) + 1 - m ≠ 0 →
      K / (n * m) * (2 * (j : ℝ) + 1) + (x0 ^ 2 - K / n) < e (pt (n * m) (i * m + j)) ^ 2 := by
    intro j hj hne
    have hx : e (pt (n * m) (i * m + j)) ≠ x0 := by
      intro h
      have := herf j hj
      rw [h, herf0] at this
      have h3 : (2 * (j : ℝ) + 1 - m) / (n * m) = 0 := by linarith
      rw [div_eq_zero_iff] at h3
      rcases h3 with h3 | h3
      · exact hne h3
      · exact (mul_ne_zero h1 h2) h3
    have ht := tangent hx
    rw [herf j hj, herf0] at ht
    have : x0 ^ 2 + K * (pt n i + (2 * (j : ℝ) + 1 - m) / (n * m) - pt n i) =
        K / (n * m) * (2 * (j : ℝ) + 1) + (x0 ^ 2 - K / n) := by field_simp; ring
    rw [hK] at this
    linarith
  have hle : ∀ j < m, K / (n * m) * (2 * (j : ℝ) + 1) + (x0 ^ 2 - K / n) ≤ e (pt (n * m) (i * m + j)) ^ 2 := by
    intro j hj
    by_cases hne : 2 * (j : ℝ) + 1 - m = 0
    · have h3 : e (pt (n * m) (i * m + j)) = x0 := by
        rw [pt_fine hn (by omega), hne]; simp [hx0]
      rw [h3]
      have : 2 * (j : ℝ) + 1 = m := by linarith
      rw [this]
      have : K / (n * m) * m + (x0 ^ 2 - K / n) = x0 ^ 2 := by field_simp; ring
      rw [this]
    · exact (hlt j hj hne).le
  have h0 : ∃ j < m, K / (n * m) * (2 * (j : ℝ) + 1) + (x0 ^ 2 - K / n) < e (pt (n * m) (i * m + j)) ^ 2 := by
    refine ⟨0, by omega, hlt 0 (by omega) ?_⟩
    have : (2 : ℝ) ≤ m := by exact_mod_cast hm
    have h5 : 2 * ((0 : Nat) : ℝ) + 1 - m < 0 := by simp; linarith
    exact h5.ne
  have := sum_lt_sum m hle h0
  rw [sum_lin] at this
  have h4 : K / (n * m) * m ^ 2 + m * (x0 ^ 2 - K / n) = m * x0 ^ 2 := by field_simp; ring
  rw [h4] at this
  exact this

/-- Refinement increases the variance. -/
theorem V_refine {e : ℝ → ℝ} (he : IsErfinv e) {n m : Nat} (hn : 0 < n) (hm : 2 ≤ m) : V e n < V e (n * m) := by
  have h1 : (0 : ℝ) < n := by exact_mod_cast hn
  have h2 : (0 : ℝ) < m := by exact_mod_cast (by omega : 0 < m)
  have h := sum_lt_sum n (fun i hi => (cell_lt he hm hi).le) ⟨0, hn, cell_lt he hm hn⟩
  rw [← range_mul_map (fun k => e (pt (n * m) k) ^ 2) m n] at h
  unfold V
  rw [div_lt_div_iff₀ h1 (by push_cast; positivity)]
  have h3 : ((List.range n).map fun i => (m : ℝ) * e (pt n i) ^ 2).sum = m * ((List.range n).map fun i => e (pt n i) ^ 2).sum := by
    have := sum_affine (fun i => e (pt n i) ^ 2) m 0 (List.range n)
    simpa using this
  rw [h3] at h
  push_cast
  nlinarith

theorem V_one {e : ℝ → ℝ} (he : IsErfinv e) : V e 1 = 0 := by
  simp [V, pt, he.zero]

theorem V_pos {e : ℝ → ℝ} (he : IsErfinv e) {n : Nat} (hn : 2 ≤ n) : 0 < V e n := by
  have := V_refine he (n := 1) (m := n) one_pos hn
  rw [V_one he] at this
  simpa using this

/-! ## The limit -/

/-- An antiderivative of `x² · 2/√π · exp(-x²)`. -/
noncomputable def P (x : ℝ) : ℝ := erf x / 2 - x * exp (-x ^ 2) / √π

theorem P_hasDerivAt (x : ℝ) : HasDerivAt P (x ^ 2 * (2 / √π * exp (-x ^ 2))) x := by
  have h1 := (erf_hasDerivAt x).div_const 2
  have h2 : HasDerivAt (fun x : ℝ => x * exp (-x ^ 2)) (1 * exp (-x ^ 2) + x * (exp (-x ^ 2) * (-(2 * x)))) x := by
    have := (hasDerivAt_id x).fun_mul ((hasDerivAt_pow 2 x).neg.exp)
    simpa using this
  have h3 := h1.fun_sub (h2.div_const √π)
  refine h3.congr_deriv ?_
  have hpi : √π ≠ 0 := by positivity
  field_simp
  ring

theorem P_neg (x : ℝ) : P (-x) = -P x := by
  unfold P
  rw [erf_neg, neg_sq]
  ring

theorem P_tendsto : Tendsto P atTop (nhds (1 / 2)) := by
  have h1 := erf_tendsto.div_const 2
  have h2 : Tendsto (fun x : ℝ => x * exp (-x ^ 2)) atTop (nhds 0) := by
    have h3 := tendsto_pow_mul_exp_neg_atTop_nhds_zero 1
    refine squeeze_zero' (g := fun x : ℝ => x ^ 1 * exp (-x)) ?_ ?_ h3
    · filter_upwards [eventually_ge_atTop (0 : ℝ)] with x hx
      positivity
    · filter_upwards [eventually_ge_atTop (1 : ℝ)] with x hx
      rw [pow_one]
      refine mul_le_mul_of_nonneg_left (Real.exp_le_exp.2 ?_) (by linarith)
      nlinarith
  have h4 := h1.sub (h2.div_const √π)
  simp only [zero_div, sub_zero] at h4
  exact h4

/-- The difference that increases strictly. -/
noncomputable def D (x0 x : ℝ) : ℝ := P x - x0 ^ 2 * erf x - √π * (x0 * exp (x0 ^ 2)) / 2 * (erf x - erf x0) ^ 2

theorem D_strictMono (x0 : ℝ) : StrictMono (D x0) := by
  have hd : ∀ x, HasDerivAt (D x0) ((2 / √π * exp (-x ^ 2)) * (x ^ 2 - x0 ^ 2 - √π * (x0 * exp (x0 ^ 2)) * (erf x - erf x0))) x := by
    intro x
    have h1 := ((P_hasDerivAt x).fun_sub ((erf_hasDerivAt x).const_mul (x0 ^ 2))).fun_sub
      ((((erf_hasDerivAt x).sub_const (erf x0)).fun_pow 2).const_mul (√π * (x0 * exp (x0 ^ 2)) / 2))
    refine h1.congr_deriv ?_
    simp
    ring
  have hc : Continuous (D x0) := continuous_iff_continuousAt.2 fun x => (hd x).continuousAt
  have hpos : ∀ x, x ≠ x0 → 0 < deriv (D x0) x := by
    intro x hx
    rw [(hd x).deriv]
    have := tangent hx
    have h2 : 0 < 2 / √π * exp (-x ^ 2) := mul_pos two_div_sqrt_pi_pos (exp_pos _)
    refine mul_pos h2 (by linarith)
  have hl : StrictMonoOn (D x0) (Iic x0) := strictMonoOn_of_deriv_pos (convex_Iic x0) hc.continuousOn fun x hx => by
    rw [interior_Iic] at hx; exact hpos x hx.ne
  have hr : StrictMonoOn (D x0) (Ici x0) := strictMonoOn_of_deriv_pos (convex_Ici x0) hc.continuousOn fun x hx => by
    rw [interior_Ici] at hx; exact hpos x hx.ne'
  exact hl.Iic_union_Ici hr

/-- The limits of `P` at the ends of the interval. -/
noncomputable def Q (e : ℝ → ℝ) (c : ℝ) : ℝ := if c ≤ -1 then -(1 / 2) else if 1 ≤ c then 1 / 2 else P (e c)

/-- The integral over a cell exceeds its midpoint value. -/
theorem Q_cell {e : ℝ → ℝ} (he : IsErfinv e) {c c' : ℝ} (h1 : -1 ≤ c) (h2 : c' ≤ 1) (h : c < c') :
    e ((c + c') / 2) ^ 2 * (c' - c) < Q e c' - Q e c := by
  set x0 := e ((c + c') / 2) with hx0
  have h0 : erf x0 = (c + c') / 2 := he _ (by linarith) (by linarith)
  set K := √π * (x0 * exp (x0 ^ 2)) with hK
  have key : ∀ u, -1 ≤ u → u ≤ 1 → ((c + c') / 2 < u → D x0 x0 < Q e u - x0 ^ 2 * u - K / 2 * (u - (c + c') / 2) ^ 2) ∧
      (u < (c + c') / 2 → Q e u - x0 ^ 2 * u - K / 2 * (u - (c + c') / 2) ^ 2 < D x0 x0) := by
    intro u hu1 hu2
    by_cases ha : u ≤ -1
    · have hu : u = -1 := by linarith
      subst hu
      refine ⟨fun h => by linarith, fun _ => ?_⟩
      have hlim : Tendsto (D x0) atBot (nhds (-(1 / 2) - x0 ^ 2 * (-1) - K / 2 * (-1 - (c + c') / 2) ^ 2)) := by
        have hp : Tendsto P atBot (nhds (-(1 / 2))) := by
          have h := (P_tendsto.comp tendsto_neg_atBot_atTop).neg
          refine h.congr fun x => ?_
          simp [P_neg]
        have := ((hp.sub (erf_tendsto_neg.const_mul (x0 ^ 2))).sub (((erf_tendsto_neg.sub_const (erf x0)).pow 2).const_mul (K / 2)))
        rw [h0] at this
        refine this.congr fun x => ?_
        unfold D
        rw [← hK, h0]
      have hq : Q e (-1) = -(1 / 2) := by simp [Q]
      rw [hq]
      have hle := (D_strictMono x0).monotone.le_of_tendsto hlim (x0 - 1)
      exact lt_of_le_of_lt hle (D_strictMono x0 (by linarith))
    · by_cases hb : 1 ≤ u
      · have hu : u = 1 := by linarith
        subst hu
        refine ⟨fun _ => ?_, fun h => by linarith⟩
        have hlim : Tendsto (D x0) atTop (nhds (1 / 2 - x0 ^ 2 * 1 - K / 2 * (1 - (c + c') / 2) ^ 2)) := by
          have := ((P_tendsto.sub (erf_tendsto.const_mul (x0 ^ 2))).sub (((erf_tendsto.sub_const (erf x0)).pow 2).const_mul (K / 2)))
          rw [h0] at this
          refine this.congr fun x => ?_
          unfold D
          rw [← hK, h0]
        have hq : Q e 1 = 1 / 2 := by simp [Q]
        rw [hq]
        have hle := (D_strictMono x0).monotone.ge_of_tendsto hlim (x0 + 1)
        exact lt_of_lt_of_le (D_strictMono x0 (by linarith)) hle
      · push Not at ha hb
        have hu := he u ha hb
        have hq : Q e u - x0 ^ 2 * u - K / 2 * (u - (c + c') / 2) ^ 2 = D x0 (e u) := by
          unfold D Q
          rw [if_neg (by linarith), if_neg (by linarith), hu, ← hK, h0]
        rw [hq]
        constructor
        · intro hlt
          exact D_strictMono x0 (he.lt (by linarith) hb hlt)
        · intro hlt
          exact D_strictMono x0 (he.lt ha (by linarith) hlt)
  have k1 := (key c h1 (by linarith)).2 (by linarith)
  have k2 := (key c' (by linarith) h2).1 (by linarith)
  have hsq : (c - (c + c') / 2) ^ 2 = (c' - (c + c') / 2) ^ 2 := by ring
  rw [hsq] at k1
  nlinarith

/-- The variance of the samples is too small for every number of samples. -/
theorem V_lt_half {e : ℝ → ℝ} (he : IsErfinv e) {n : Nat} (hn : 0 < n) : V e n < 1 / 2 := by
  have hn' : (0 : ℝ) < n := by exact_mod_cast hn
  set c : Nat → ℝ := fun k => 2 * k / n - 1 with hc
  have hstep : ∀ i < n, e (pt n i) ^ 2 * (2 / n) < Q e (c (i + 1)) - Q e (c i) := by
    intro i hi
    have hi' : (i : ℝ) + 1 ≤ n := by exact_mod_cast hi
    have h := Q_cell he (c := c i) (c' := c (i + 1)) (by
      have : 0 ≤ 2 * (i : ℝ) / n := by positivity
      simp only [hc]; linarith) (by
      simp only [hc]
      have : 2 * ((i + 1 : Nat) : ℝ) / n ≤ 2 := by rw [div_le_iff₀ hn']; push_cast; linarith
      linarith) (by
      simp only [hc]
      have : 2 * (i : ℝ) / n < 2 * ((i + 1 : Nat) : ℝ) / n := by
        apply div_lt_div_of_pos_right _ hn'; push_cast; linarith
      linarith)
    have e1 : (c i + c (i + 1)) / 2 = pt n i := by
      simp only [hc, pt]; push_cast; field_simp; ring
    have e2 : c (i + 1) - c i = 2 / n := by
      simp only [hc]; push_cast; field_simp; ring
    rw [e1, e2] at h
    exact h
  have htel : ∀ k, ((List.range k).map fun i => Q e (c (i + 1)) - Q e (c i)).sum = Q e (c k) - Q e (c 0) := by
    intro k
    induction k with
    | zero => simp
    | succ k ih => rw [List.range_succ, List.map_append, List.sum_append, ih]; simp
  have h := sum_lt_sum n (fun i hi => (hstep i hi).le) ⟨0, hn, hstep 0 hn⟩
  rw [htel n] at h
  have hcn : c n = 1 := by simp only [hc]; field_simp; norm_num
  have hc0 : c 0 = -1 := by simp [hc]
  have hq1 : Q e (c n) = 1 / 2 := by rw [hcn]; simp [Q]
  have hq0 : Q e (c 0) = -(1 / 2) := by rw [hc0]; simp [Q]
  rw [hq1, hq0] at h
  have h3 : ((List.range n).map fun i => e (pt n i) ^ 2 * (2 / n)).sum = 2 / n * ((List.range n).map fun i => e (pt n i) ^ 2).sum := by
    have := sum_affine (fun i => e (pt n i) ^ 2) (2 / n) 0 (List.range n)
    simp only [add_zero, mul_zero] at this
    rw [← this]
    congr 2
    funext i
    ring
  rw [h3] at h
  unfold V
  have : 2 * (((List.range n).map fun i => e (pt n i) ^ 2).sum / n) < 1 := by
    have h4 : 2 * (((List.range n).map fun i => e (pt n i) ^ 2).sum / n) = 2 / n * ((List.range n).map fun i => e (pt n i) ^ 2).sum := by
      ring
    rw [h4]; linarith
  linarith

end Verif.Noise
