import Verif.Noise.Colored
import Mathlib.Probability.Distributions.Gaussian.Real
import Mathlib.Probability.HasLaw
import Mathlib.Probability.Independence.InfinitePi

/-!
# C109: coloured noise is stationary, with the autocovariance of its spectral density (noise.py:251-312, 609-693)

`np.random.randn` is modelled by what it promises: independent standard normal random variables (`WhiteNoise`).
-/

namespace Verif.Noise
open Verif Complex Finset MeasureTheory ProbabilityTheory

/-- The contract of `np.random.randn`: the numbers are independent standard normal variables. -/
structure WhiteNoise {Ω : Type*} [MeasurableSpace Ω] (μ : Measure Ω) (randn : Ω → Nat → Nat → Nat → ℝ) : Prop where
  indep : iIndepFun (fun (p : Nat × Nat × Nat) ω => randn ω p.1 p.2.1 p.2.2) μ
  law : ∀ a b j, HasLaw (fun ω => randn ω a b j) (gaussianReal 0 1) μ

/-! ## Sums -/

/-- Pairing every index with its mirror image. -/
theorem sum_fold {M : Type*} [AddCommMonoid M] (f : Nat → M) {n : Nat} (hn : 0 < n) :
    ∑ k ∈ range n, f k = f 0 + ∑ k ∈ Ico 1 ((n + 1) / 2), (f k + f (n - k)) + if n % 2 = 0 then f (n / 2) else 0 := by
  have h1 : ∑ k ∈ Ico 1 ((n + 1) / 2), f (n - k) = ∑ k ∈ Ico (n + 1 - (n + 1) / 2) n, f k := by
    rw [sum_Ico_reflect f 1 (by omega : (n + 1) / 2 ≤ n + 1)]
    congr 1
  rw [sum_add_distrib, h1, range_eq_Ico, ← sum_Ico_consecutive f (Nat.zero_le 1) (by omega : 1 ≤ n)]
  rw [← sum_Ico_consecutive f (by omega : 1 ≤ (n + 1) / 2) (by omega : (n + 1) / 2 ≤ n)]
  rw [← sum_Ico_consecutive f (by omega : (n + 1) / 2 ≤ n + 1 - (n + 1) / 2) (by omega : n + 1 - (n + 1) / 2 ≤ n)]
  have h2 : ∑ k ∈ Ico ((n + 1) / 2) (n + 1 - (n + 1) / 2), f k = if n % 2 = 0 then f (n / 2) else 0 := by
    split
    · rw [show (n + 1) / 2 = n / 2 by omega, show n + 1 - n / 2 = n / 2 + 1 by omega]
      simp
    · rw [show n + 1 - (n + 1) / 2 = (n + 1) / 2 by omega]
      simp
  rw [h2]
  simp only [show Ico 0 1 = {0} from rfl, sum_singleton]
  abel

/-- The complex form of a filter with real amplitudes `r`, extended symmetrically. -/
noncomputable def kern (r : Nat → ℝ) (n : Nat) (d : ℤ) : ℂ :=
  (1 / n) * ∑ k ∈ range n, (r (min k (n - k)) : ℂ) * exp (2 * Real.pi * I * k * d / n)

/-- The real form. -/
noncomputable def kernR (r : Nat → ℝ) (n : Nat) (d : ℤ) : ℝ :=
  (r 0 + ∑ k ∈ Ico 1 ((n + 1) / 2), 2 * r k * Real.cos (2 * Real.pi * k * d / n) +
    if n % 2 = 0 then r (n / 2) * Real.cos (Real.pi * d) else 0) / n

theorem kern_eq (r : Nat → ℝ) {n : Nat} (hn : 0 < n) (d : ℤ) : kern r n d = kernR r n d := by
  have hn' : (n : ℂ) ≠ 0 := by exact_mod_cast hn.ne'
  unfold kern kernR
  rw [sum_fold _ hn]
  have hmid : ∀ k ∈ Ico 1 ((n + 1) / 2), ((r (min k (n - k)) : ℂ) * exp (2 * Real.pi * I * k * d / n) +
      (r (min (n - k) (n - (n - k))) : ℂ) * exp (2 * Real.pi * I * (n - k : Nat) * d / n)) =
      ((2 * r k * Real.cos (2 * Real.pi * k * d / n) : ℝ) : ℂ) := by
    intro k hk
    rw [mem_Ico] at hk
    rw [show min k (n - k) = k by omega, show min (n - k) (n - (n - k)) = k by omega]
    have e : exp (2 * Real.pi * I * (n - k : Nat) * d / n) = exp (-(2 * Real.pi * k * d / n * I)) := by
      have : (2 * Real.pi * I * (n - k : Nat) * d / n : ℂ) = -(2 * Real.pi * k * d / n * I) + d * (2 * Real.pi * I) := by
        rw [Nat.cast_sub (by omega)]
        field_simp
        ring
      rw [this, Complex.exp_add, (Complex.exp_eq_one_iff.2 ⟨d, rfl⟩ : exp (d * (2 * Real.pi * I)) = 1), mul_one]
    rw [e, show (2 * Real.pi * I * k * d / n : ℂ) = 2 * Real.pi * k * d / n * I by ring]
    push_cast
    rw [Complex.cos]
    ring_nf
  have hlast : (r (min (n / 2) (n - n / 2)) : ℂ) * exp (2 * Real.pi * I * (n / 2 : Nat) * d / n) * (if n % 2 = 0 then 1 else 0) =
      ((if n % 2 = 0 then r (n / 2) * Real.cos (Real.pi * d) else 0 : ℝ) : ℂ) := by
    split
    · rename_i hev
      rw [show min (n / 2) (n - n / 2) = n / 2 by omega]
      have h2 : ((n / 2 : Nat) : ℂ) = n / 2 := by
        have : n = 2 * (n / 2) := by omega
        have h3 : (n : ℂ) = 2 * ((n / 2 : Nat) : ℂ) := by exact_mod_cast this
        rw [h3]; ring
      have e : (2 * Real.pi * I * (n / 2 : Nat) * d / n : ℂ) = (Real.pi * d : ℝ) * I := by
        rw [h2]; push_cast; field_simp
      rw [e, Complex.exp_mul_I, ← Complex.ofReal_cos, ← Complex.ofReal_sin, show Real.sin (Real.pi * d) = 0 by
        rw [mul_comm]; exact Real.sin_int_mul_pi d]
      push_cast
      ring
    · simp
  rw [sum_congr rfl hmid]
  have hz : (if n % 2 = 0 then (r (min (n / 2) (n - n / 2)) : ℂ) * exp (2 * Real.pi * I * (n / 2 : Nat) * d / n) else 0) =
      ((if n % 2 = 0 then r (n / 2) * Real.cos (Real.pi * d) else 0 : ℝ) : ℂ) := by
    rw [← hlast]; split <;> simp
  rw [hz]
  push_cast
  simp
  ring

/-- The filter applied twice has the squared amplitudes. -/
theorem kern_conv (r : Nat → ℝ) {n : Nat} (hn : 0 < n) (i j : Nat) :
    ∑ m ∈ range n, kern r n ((i : ℤ) - m) * kern r n ((m : ℤ) - j) = kern (fun k => r k ^ 2) n ((i : ℤ) - j) := by
  have hn' : (n : ℂ) ≠ 0 := by exact_mod_cast hn.ne'
  have hterm : ∀ m : Nat, kern r n ((i : ℤ) - m) * kern r n ((m : ℤ) - j) = (1 / n) * (1 / n) * ∑ k ∈ range n, ∑ l ∈ range n,
      ((r (min k (n - k)) : ℂ) * (r (min l (n - l)) : ℂ) * exp (2 * Real.pi * I * (k * i - l * j) / n)) *
        exp (2 * Real.pi * I * m * ((l : ℤ) - k : ℤ) / n) := by
    intro m
    unfold kern
    rw [mul_mul_mul_comm, sum_mul_sum]
    congr 1
    refine sum_congr rfl fun k _ => sum_congr rfl fun l _ => ?_
    rw [mul_mul_mul_comm, ← Complex.exp_add, mul_assoc _ (exp _), ← Complex.exp_add]
    congr 1
    push_cast
    congr 1
    ring
  rw [sum_congr rfl fun m _ => hterm m, ← mul_sum, sum_comm]
  have hin : ∀ k ∈ range n, ∑ m ∈ range n, ∑ l ∈ range n,
      ((r (min k (n - k)) : ℂ) * (r (min l (n - l)) : ℂ) * exp (2 * Real.pi * I * (k * i - l * j) / n)) *
        exp (2 * Real.pi * I * m * ((l : ℤ) - k : ℤ) / n) =
      n * ((r (min k (n - k)) : ℂ) ^ 2 * exp (2 * Real.pi * I * k * ((i : ℤ) - j : ℤ) / n)) := by
    intro k hk
    rw [sum_comm]
    have : ∀ l ∈ range n, ∑ m ∈ range n,
        ((r (min k (n - k)) : ℂ) * (r (min l (n - l)) : ℂ) * exp (2 * Real.pi * I * (k * i - l * j) / n)) *
        exp (2 * Real.pi * I * m * ((l : ℤ) - k : ℤ) / n) =
        if k = l then n * ((r (min k (n - k)) : ℂ) ^ 2 * exp (2 * Real.pi * I * k * ((i : ℤ) - j : ℤ) / n)) else 0 := by
      intro l hl
      rw [← mul_sum, exp_sum hn]
      rw [mem_range] at hk hl
      by_cases h : k = l
      · subst h
        rw [if_pos (by simp), if_pos rfl]
        push_cast
        ring_nf
      · rw [if_neg h, if_neg, mul_zero]
        rintro ⟨q, hq⟩
        have a1 : (l : ℤ) - k < n := by omega
        have a2 : -(n : ℤ) < (l : ℤ) - k := by omega
        rw [hq] at a1 a2
        have hn2 : (0 : ℤ) < n := by omega
        have b1 : q < 1 := by nlinarith
        have b2 : -1 < q := by nlinarith
        have : q = 0 := by omega
        subst this
        omega
    rw [sum_congr rfl this, sum_ite_eq, if_pos hk]
  rw [sum_congr rfl hin, ← mul_sum]
  unfold kern
  rw [← mul_assoc, show (1 / n : ℂ) * (1 / n) * n = 1 / n by field_simp]
  push_cast
  rfl

theorem kernR_neg (r : Nat → ℝ) (n : Nat) (d : ℤ) : kernR r n (-d) = kernR r n d := by
  unfold kernR
  have h1 : ∀ k : Nat, Real.cos (2 * Real.pi * k * ((-d : ℤ) : ℝ) / n) = Real.cos (2 * Real.pi * k * d / n) := by
    intro k
    rw [← Real.cos_neg]
    congr 1
    push_cast
    ring
  have h2 : Real.cos (Real.pi * ((-d : ℤ) : ℝ)) = Real.cos (Real.pi * d) := by
    rw [← Real.cos_neg]
    congr 1
    push_cast
    ring
  simp only [h1, h2]

theorem kernR_conv (r : Nat → ℝ) {n : Nat} (hn : 0 < n) (i j : Nat) :
    ∑ m ∈ range n, kernR r n ((i : ℤ) - m) * kernR r n ((j : ℤ) - m) = kernR (fun k => r k ^ 2) n ((i : ℤ) - j) := by
  have h := kern_conv r hn i j
  simp only [kern_eq _ hn] at h
  have h' : ∑ m ∈ range n, kernR r n ((i : ℤ) - m) * kernR r n ((m : ℤ) - j) = kernR (fun k => r k ^ 2) n ((i : ℤ) - j) := by
    exact_mod_cast h
  rw [← h']
  refine sum_congr rfl fun m _ => ?_
  rw [← kernR_neg r n ((m : ℤ) - j), neg_sub]

/-- Colouring is a convolution. -/
theorem irfft_rfft_mul (r w : Nat → ℝ) {n : Nat} (hn : 0 < n) (i : Nat) :
    irfft (fun k => rfft w n k * r k) n i = ∑ m ∈ range n, kernR r n ((i : ℤ) - m) * w m := by
  have hn' : (n : ℝ) ≠ 0 := by exact_mod_cast hn.ne'
  have hre : ∀ k : Nat, (rfft w n k * r k * exp (2 * Real.pi * I * i * k / n)).re =
      ∑ m ∈ range n, r k * Real.cos (2 * Real.pi * k * ((i : ℤ) - m : ℤ) / n) * w m := by
    intro k
    unfold rfft
    rw [sum_mul, sum_mul, Complex.re_sum]
    refine sum_congr rfl fun m _ => ?_
    have : (w m : ℂ) * exp (-(2 * Real.pi * I * m * k / n)) * r k * exp (2 * Real.pi * I * i * k / n) =
        ((r k * w m : ℝ) : ℂ) * exp ((2 * Real.pi * k * ((i : ℤ) - m : ℤ) / n : ℝ) * I) := by
      rw [show (w m : ℂ) * exp (-(2 * Real.pi * I * m * k / n)) * r k * exp (2 * Real.pi * I * i * k / n) =
        w m * r k * (exp (-(2 * Real.pi * I * m * k / n)) * exp (2 * Real.pi * I * i * k / n)) by ring, ← Complex.exp_add]
      push_cast
      ring_nf
    rw [this, Complex.re_ofReal_mul, Complex.exp_ofReal_mul_I_re]
    ring
  have h0 : (rfft w n 0 * r 0).re = ∑ m ∈ range n, r 0 * w m := by
    rw [rfft_zero, ← Complex.ofReal_mul, Complex.ofReal_re, sum_mul]
    exact sum_congr rfl fun m _ => mul_comm _ _
  have hlast : n % 2 = 0 → (rfft w n (n / 2) * r (n / 2)).re * (-1) ^ i =
      ∑ m ∈ range n, r (n / 2) * Real.cos (Real.pi * ((i : ℤ) - m : ℤ)) * w m := by
    intro hev
    have h2 : ((n / 2 : Nat) : ℂ) = n / 2 := by
      have : n = 2 * (n / 2) := by omega
      have h3 : (n : ℂ) = 2 * ((n / 2 : Nat) : ℂ) := by exact_mod_cast this
      rw [h3]; ring
    have hnc : (n : ℂ) ≠ 0 := by exact_mod_cast hn.ne'
    unfold rfft
    rw [sum_mul, Complex.re_sum, sum_mul]
    refine sum_congr rfl fun m _ => ?_
    have e1 : (-(2 * Real.pi * I * m * (n / 2 : Nat) / n) : ℂ) = m * (-(Real.pi * I)) := by
      rw [h2]; field_simp
    have e2 : exp (-(2 * Real.pi * I * m * (n / 2 : Nat) / n)) = (((-1) ^ m : ℝ) : ℂ) := by
      rw [e1, Complex.exp_nat_mul, Complex.exp_neg, Complex.exp_pi_mul_I]
      push_cast
      norm_num
    have e3 : Real.cos (Real.pi * ((i : ℤ) - m : ℤ)) = (-1) ^ i * (-1) ^ m := by
      push_cast
      rw [mul_sub, Real.cos_sub, mul_comm Real.pi i, mul_comm Real.pi m, Real.cos_nat_mul_pi, Real.cos_nat_mul_pi,
        Real.sin_nat_mul_pi]
      ring
    rw [e2, e3, ← Complex.ofReal_mul, ← Complex.ofReal_mul, Complex.ofReal_re]
    ring
  unfold irfft kernR
  have hmid : ∑ k ∈ Ico 1 ((n + 1) / 2), 2 * (rfft w n k * r k * exp (2 * Real.pi * I * i * k / n)).re =
      ∑ m ∈ range n, ∑ k ∈ Ico 1 ((n + 1) / 2), 2 * (r k * Real.cos (2 * Real.pi * k * ((i : ℤ) - m : ℤ) / n) * w m) := by
    rw [sum_comm]
    refine sum_congr rfl fun k _ => ?_
    rw [hre k, mul_sum]
  rw [h0, hmid]
  have hl2 : (if n % 2 = 0 then (rfft w n (n / 2) * r (n / 2)).re * (-1) ^ i else 0) =
      ∑ m ∈ range n, (if n % 2 = 0 then r (n / 2) * Real.cos (Real.pi * ((i : ℤ) - m : ℤ)) else 0) * w m := by
    split
    · rename_i hev; exact hlast hev
    · simp
  rw [hl2, ← sum_add_distrib, ← sum_add_distrib, sum_div]
  refine sum_congr rfl fun m _ => ?_
  rw [div_mul_eq_mul_div, add_mul, add_mul, sum_mul]
  congr 3
  refine sum_congr rfl fun k _ => ?_
  ring

/-! ## White noise -/

section White
variable {Ω : Type*} [MeasurableSpace Ω] {μ : Measure Ω} [IsProbabilityMeasure μ] {randn : Ω → Nat → Nat → Nat → ℝ}

theorem WhiteNoise.memLp (h : WhiteNoise μ randn) (a b j : Nat) : MemLp (fun ω => randn ω a b j) 2 μ := by
  have h1 := (memLp_id_gaussianReal (μ := 0) (v := 1) 2)
  rw [← (h.law a b j).map_eq] at h1
  exact (memLp_map_measure_iff (by fun_prop) (h.law a b j).aemeasurable).1 h1

theorem WhiteNoise.integrable (h : WhiteNoise μ randn) (a b j : Nat) : Integrable (fun ω => randn ω a b j) μ :=
  (h.memLp a b j).integrable (by norm_num)

theorem WhiteNoise.mean (h : WhiteNoise μ randn) (a b j : Nat) : ∫ ω, randn ω a b j ∂μ = 0 := by
  have := (h.law a b j).integral_eq
  rw [this]
  exact integral_id_gaussianReal

theorem WhiteNoise.integrable_mul (h : WhiteNoise μ randn) (a b j a' b' j' : Nat) :
    Integrable (fun ω => randn ω a b j * randn ω a' b' j') μ :=
  (h.memLp a b j).integrable_mul (h.memLp a' b' j')

theorem WhiteNoise.second (h : WhiteNoise μ randn) (a b j a' b' j' : Nat) :
    ∫ ω, randn ω a b j * randn ω a' b' j' ∂μ = if (a, b, j) = (a', b', j') then 1 else 0 := by
  split
  · rename_i he
    cases he
    have h1 : Var[fun ω => randn ω a b j; μ] = 1 := by
      rw [(h.law a b j).variance_eq, variance_id_gaussianReal]
      rfl
    rw [variance_of_integral_eq_zero (h.law a b j).aemeasurable (h.mean a b j)] at h1
    simpa only [sq] using h1
  · rename_i he
    have h1 := (h.indep.indepFun he).integral_fun_mul_eq_mul_integral
      (h.integrable a b j).aestronglyMeasurable (h.integrable a' b' j').aestronglyMeasurable
    rw [h1, h.mean a b j, zero_mul]

/-- Linear combinations of white noise. -/
theorem WhiteNoise.linear (h : WhiteNoise μ randn) (c d : Nat → ℝ) (n a b a' b' : Nat) :
    Integrable (fun ω => ∑ m ∈ range n, c m * randn ω a b m) μ ∧ ∫ ω, (∑ m ∈ range n, c m * randn ω a b m) ∂μ = 0 ∧
    Integrable (fun ω => (∑ m ∈ range n, c m * randn ω a b m) * ∑ m ∈ range n, d m * randn ω a' b' m) μ ∧
    ∫ ω, (∑ m ∈ range n, c m * randn ω a b m) * (∑ m ∈ range n, d m * randn ω a' b' m) ∂μ =
      if (a, b) = (a', b') then ∑ m ∈ range n, c m * d m else 0 := by
  have hi : ∀ m ∈ range n, Integrable (fun ω => c m * randn ω a b m) μ := fun m _ => (h.integrable a b m).const_mul _
  have hp : ∀ ω, (∑ m ∈ range n, c m * randn ω a b m) * (∑ m ∈ range n, d m * randn ω a' b' m) =
      ∑ m ∈ range n, ∑ m' ∈ range n, c m * d m' * (randn ω a b m * randn ω a' b' m') := by
    intro ω
    rw [sum_mul_sum]
    exact sum_congr rfl fun m _ => sum_congr rfl fun m' _ => by ring
  have hi2 : ∀ m ∈ range n, ∀ m' ∈ range n, Integrable (fun ω => c m * d m' * (randn ω a b m * randn ω a' b' m')) μ :=
    fun m _ m' _ => (h.integrable_mul a b m a' b' m').const_mul _
  refine ⟨integrable_finsetSum _ hi, ?_, ?_, ?_⟩
  · rw [integral_finsetSum _ hi]
    refine sum_eq_zero fun m _ => ?_
    rw [integral_const_mul, h.mean, mul_zero]
  · simp only [hp]
    exact integrable_finsetSum _ fun m hm => integrable_finsetSum _ fun m' hm' => hi2 m hm m' hm'
  · simp only [hp]
    rw [integral_finsetSum _ fun m hm => integrable_finsetSum _ fun m' hm' => hi2 m hm m' hm']
    have : ∀ m ∈ range n, ∫ ω, ∑ m' ∈ range n, c m * d m' * (randn ω a b m * randn ω a' b' m') ∂μ =
        if (a, b) = (a', b') then c m * d m else 0 := by
      intro m hm
      rw [integral_finsetSum _ fun m' hm' => hi2 m hm m' hm']
      have h1 : ∀ m' ∈ range n, ∫ ω, c m * d m' * (randn ω a b m * randn ω a' b' m') ∂μ =
          if m = m' then (if (a, b) = (a', b') then c m * d m else 0) else 0 := by
        intro m' _
        rw [integral_const_mul, h.second]
        by_cases h1 : (a, b) = (a', b')
        · obtain ⟨rfl, rfl⟩ := Prod.mk.injEq .. ▸ h1
          by_cases h2 : m = m'
          · subst h2; simp
          · simp [h2]
        · have h3 : (a, b, m) ≠ (a', b', m') := by
            intro hc
            apply h1
            simp only [Prod.mk.injEq] at hc ⊢
            exact ⟨hc.1, hc.2.1⟩
          rw [if_neg h3, if_neg h1]
          simp
      rw [sum_congr rfl h1, sum_ite_eq, if_pos hm]
    rw [sum_congr rfl this]
    split <;> simp

/-- Such numbers exist. -/
theorem whiteNoise_exists : ∃ μ : Measure (Nat × Nat × Nat → ℝ), IsProbabilityMeasure μ ∧ WhiteNoise μ fun ω a b j => ω (a, b, j) := by
  refine ⟨Measure.infinitePi fun _ => gaussianReal 0 1, inferInstance, ?_, fun a b j => ⟨(measurable_pi_apply _).aemeasurable, ?_⟩⟩
  · exact iIndepFun_infinitePi (P := fun _ : Nat × Nat × Nat => gaussianReal 0 1) (X := fun _ x => x) (fun _ => measurable_id)
  · exact Measure.infinitePi_map_eval _ (a, b, j)

end White

/-! ## C109: the covariance -/

/-- Specification: the integral over the frequency `f` from zero to the Nyquist frequency of `S f cos (2 π f τ)`, as a sum over the
frequencies of a signal of duration `n dt`; for even `n` the Nyquist frequency is the last one and has half the weight. -/
noncomputable def autocov (S : ℝ → ℝ) (dt : ℝ) (n : Nat) (τ : ℝ) : ℝ :=
  ∑ k ∈ Ico 1 ((n + 1) / 2), S (k / (n * dt)) * Real.cos (2 * Real.pi * (k / (n * dt)) * τ) * (1 / (n * dt)) +
    if n % 2 = 0 then S (1 / (2 * dt)) * Real.cos (2 * Real.pi * (1 / (2 * dt)) * τ) * (1 / (n * dt)) / 2 else 0

section Cov
variable {Ω : Type*} [MeasurableSpace Ω] {μ : Measure Ω} [IsProbabilityMeasure μ] {randn : Ω → Nat → Nat → Nat → ℝ}

/-- The samples, when all roots are real. -/
theorem fastColored_eq (S : ℝ → ℝ) {dt : ℝ} (hdt : 0 < dt) {n : Nat} (hn : 0 < n) (ops traces : Nat)
    (hS : ∀ k, 0 < k → k ≤ n / 2 → 0 ≤ S (freqGrid dt n k)) (randn : Nat → Nat → Nat → ℝ) :
    fastColored S dt n ops traces false randn = .ok ((List.range ops).map fun a => (List.range traces).map fun b => some
      ((List.range n).map fun i : Nat => ∑ m ∈ range n,
        kernR (fun k => √(density S dt n k / s0 dt)) n ((i : ℤ) - m) * randn a b m)) := by
  unfold fastColored
  rw [if_neg hdt.ne']
  simp only [actualN, Bool.false_eq_true, if_false]
  rw [if_neg hn.ne']
  have hneg : ¬ ∃ k, k ≤ n / 2 ∧ density S dt n k / s0 dt < 0 := by
    rintro ⟨k, hk, h⟩
    have : 0 ≤ density S dt n k / s0 dt := by
      refine div_nonneg ?_ (by unfold s0; positivity)
      unfold density
      split
      · exact le_refl _
      · exact hS k (by omega) hk
    linarith
  unfold colour
  simp only [if_neg hneg, irfft_rfft_mul _ _ hn]

theorem kernR_density (S : ℝ → ℝ) {dt : ℝ} (hdt : 0 < dt) (n : Nat)
    (hS : ∀ k, 0 < k → k ≤ n / 2 → 0 ≤ S (freqGrid dt n k)) (d : ℤ) :
    kernR (fun k => √(density S dt n k / s0 dt) ^ 2) n d =
      (∑ k ∈ Ico 1 ((n + 1) / 2), S (freqGrid dt n k) * Real.cos (2 * Real.pi * k * d / n) * (1 / dt) +
        if n % 2 = 0 ∧ 0 < n then S (freqGrid dt n (n / 2)) * Real.cos (Real.pi * d) * (1 / dt / 2) else 0) / n := by
  have hsq : ∀ k, 0 < k → k ≤ n / 2 → √(density S dt n k / s0 dt) ^ 2 = S (freqGrid dt n k) * (1 / dt / 2) := by
    intro k hk hk2
    rw [Real.sq_sqrt]
    · unfold density s0
      rw [if_neg hk.ne', div_div_eq_mul_div, div_one]
    · unfold density s0
      rw [if_neg hk.ne']
      exact div_nonneg (hS k hk hk2) (by positivity)
  unfold kernR
  congr 1
  dsimp only
  rw [show √(density S dt n 0 / s0 dt) ^ 2 = 0 by simp [density], zero_add]
  congr 1
  · refine sum_congr rfl fun k hk => ?_
    rw [mem_Ico] at hk
    rw [hsq k (by omega) (by omega)]
    ring
  · by_cases h0 : 0 < n
    · by_cases hev : n % 2 = 0
      · rw [if_pos hev, if_pos ⟨hev, h0⟩, hsq (n / 2) (by omega) le_rfl]
        ring
      · rw [if_neg hev, if_neg (fun h => hev h.1)]
    · have : n = 0 := by omega
      subst this
      simp [density]

/-- The samples and their covariance, for every number of samples. -/
theorem covariance (h : WhiteNoise μ randn) (S : ℝ → ℝ) {dt : ℝ} (hdt : 0 < dt) {n : Nat} (hn : 0 < n) (ops traces : Nat)
    (hS : ∀ k, 0 < k → k ≤ n / 2 → 0 ≤ S (freqGrid dt n k)) :
    ∃ x : Ω → Nat → Nat → Nat → ℝ, (∀ ω, fastColored S dt n ops traces false (randn ω) =
      .ok ((List.range ops).map fun a => (List.range traces).map fun b => some ((List.range n).map fun i => x ω a b i))) ∧
    (∀ a b i, Integrable (fun ω => x ω a b i) μ ∧ ∫ ω, x ω a b i ∂μ = 0) ∧
    ∀ a b i a' b' j, Integrable (fun ω => x ω a b i * x ω a' b' j) μ ∧
      ∫ ω, x ω a b i * x ω a' b' j ∂μ = if (a, b) = (a', b') then
        (∑ k ∈ Ico 1 ((n + 1) / 2), S (freqGrid dt n k) * Real.cos (2 * Real.pi * k * ((i : ℤ) - j : ℤ) / n) * (1 / dt) +
          if n % 2 = 0 ∧ 0 < n then S (freqGrid dt n (n / 2)) * Real.cos (Real.pi * ((i : ℤ) - j : ℤ)) * (1 / dt / 2) else 0) / n
        else 0 := by
  refine ⟨fun ω a b i => ∑ m ∈ range n, kernR (fun k => √(density S dt n k / s0 dt)) n ((i : ℤ) - m) * randn ω a b m,
    fun ω => fastColored_eq S hdt hn ops traces hS (randn ω), fun a b i => ?_, fun a b i a' b' j => ?_⟩
  · obtain ⟨h1, h2, -⟩ := h.linear (fun m => kernR (fun k => √(density S dt n k / s0 dt)) n ((i : ℤ) - m)) (fun _ => 0) n a b 0 0
    exact ⟨h1, h2⟩
  · obtain ⟨-, -, h1, h2⟩ := h.linear (fun m => kernR (fun k => √(density S dt n k / s0 dt)) n ((i : ℤ) - m))
      (fun m => kernR (fun k => √(density S dt n k / s0 dt)) n ((j : ℤ) - m)) n a b a' b'
    refine ⟨h1, h2.trans ?_⟩
    rw [kernR_conv _ hn, kernR_density S hdt n hS]

theorem freqGrid_even {dt : ℝ} (hdt : dt ≠ 0) {n : Nat} (hn : 0 < n) (hev : n % 2 = 0) (k : Nat) : freqGrid dt n k = k / (n * dt) := by
  have h2 : ((n / 2 : Nat) : ℝ) = n / 2 := by
    have : n = 2 * (n / 2) := by omega
    have h3 : (n : ℝ) = 2 * ((n / 2 : Nat) : ℝ) := by exact_mod_cast this
    rw [h3]; ring
  have hn' : (n : ℝ) ≠ 0 := by exact_mod_cast hn.ne'
  unfold freqGrid
  rw [h2]
  field_simp
  ring

/-- **C109** (partial): for an even number of samples and a density that is not negative, all traces exist, every sample has mean
zero, and the product of two samples has the mean `autocov` of their distance in time, if they belong to the same trace of the same
operator, and zero otherwise.
Missing: odd numbers of samples, see `c109_violated`. -/
theorem c109_covariance_partial (h : WhiteNoise μ randn) (S : ℝ → ℝ) {dt : ℝ} (hdt : 0 < dt) {n : Nat} (hn : 0 < n) (hev : n % 2 = 0)
    (ops traces : Nat) (hS : ∀ k : Nat, 0 < k → k ≤ n / 2 → 0 ≤ S (k / (n * dt))) :
    ∃ x : Ω → Nat → Nat → Nat → ℝ, (∀ ω, fastColored S dt n ops traces false (randn ω) =
      .ok ((List.range ops).map fun a => (List.range traces).map fun b => some ((List.range n).map fun i => x ω a b i))) ∧
    (∀ a b i, Integrable (fun ω => x ω a b i) μ ∧ ∫ ω, x ω a b i ∂μ = 0) ∧
    ∀ a b i a' b' j, Integrable (fun ω => x ω a b i * x ω a' b' j) μ ∧
      ∫ ω, x ω a b i * x ω a' b' j ∂μ = if (a, b) = (a', b') then autocov S dt n (((i : ℝ) - j) * dt) else 0 := by
  obtain ⟨x, h1, h2, h3⟩ := covariance h S hdt hn ops traces
    (fun k hk hk2 => by rw [freqGrid_even hdt.ne' hn hev]; exact hS k hk hk2)
  refine ⟨x, h1, h2, fun a b i a' b' j => ⟨(h3 a b i a' b' j).1, (h3 a b i a' b' j).2.trans ?_⟩⟩
  have hn' : (n : ℝ) ≠ 0 := by exact_mod_cast hn.ne'
  have hd := hdt.ne'
  congr 1
  unfold autocov
  rw [if_pos ⟨hev, hn⟩, if_pos hev, add_div, sum_div]
  congr 1
  · refine sum_congr rfl fun k _ => ?_
    rw [freqGrid_even hd hn hev]
    have : 2 * Real.pi * (k / (n * dt)) * (((i : ℝ) - j) * dt) = 2 * Real.pi * k * ((i : ℤ) - j : ℤ) / n := by
      push_cast; field_simp
    rw [this]
    field_simp
  · have h2 : freqGrid dt n (n / 2) = 1 / (2 * dt) := by
      unfold freqGrid
      have : ((n / 2 : Nat) : ℝ) ≠ 0 := by
        have : n / 2 ≠ 0 := by omega
        exact_mod_cast this
      field_simp
      ring
    have : 2 * Real.pi * (1 / (2 * dt)) * (((i : ℝ) - j) * dt) = Real.pi * ((i : ℤ) - j : ℤ) := by
      push_cast; field_simp
    rw [h2, this]
    field_simp

/-- **C109** (partial): the samples of the generator, for an even length of the extended trace. -/
theorem c109_generator_partial (h : WhiteNoise μ randn) (S : ℝ → ℝ) {dt : ℝ} (hdt : 0 < dt) {n traces ops : Nat} (hn : 0 < n)
    (ht : 0 < traces) (ho : 0 < ops) (ratio : Int) (hr : 1 ≤ ratio) (hev : (n * ratio.toNat) % 2 = 0)
    (hS : ∀ k : Nat, 0 < k → k ≤ (n * ratio.toNat) / 2 → 0 ≤ S (k / ((n * ratio.toNat : Nat) * dt))) :
    ∃ (g : ColoredNoise) (x : Ω → Nat → Nat → Nat → ℝ), ColoredNoise.new S dt (some n) (some traces) (some ops) ratio = .ok g ∧
    (∀ ω, g.draw (randn ω) =
      .ok ((List.range ops).map fun a => (List.range traces).map fun b => some ((List.range n).map fun i => x ω a b i))) ∧
    (∀ a b i, Integrable (fun ω => x ω a b i) μ ∧ ∫ ω, x ω a b i ∂μ = 0) ∧
    ∀ a b i a' b' j, Integrable (fun ω => x ω a b i * x ω a' b' j) μ ∧
      ∫ ω, x ω a b i * x ω a' b' j ∂μ =
        if (a, b) = (a', b') then autocov S dt (n * ratio.toNat) (((i : ℝ) - j) * dt) else 0 := by
  have hrn : 1 ≤ ratio.toNat := by omega
  have hle : n ≤ n * ratio.toNat := Nat.le_mul_of_pos_right n hrn
  obtain ⟨x, h1, h2, h3⟩ := c109_covariance_partial h S hdt (by omega : 0 < n * ratio.toNat) hev ops traces hS
  obtain ⟨g, -, hg, -⟩ := c83_shape S dt hdt.ne' n traces ops hn ht ho ratio hr (fun _ _ _ => 0)
  refine ⟨g, x, hg, fun ω => ?_, h2, h3⟩
  rw [c83_prefix S dt n traces ops hn ht ho ratio hr (randn ω) g hg, h1 ω]
  simp only [Except.map, List.map_map, Function.comp_def, Option.map_some, ← List.map_take, List.take_range,
    Nat.min_eq_left hle]

/-- **C109** fails for every odd number of samples greater than one: there is a density for which the variance of the samples is not
`autocov` at zero. -/
theorem c109_violated (h : WhiteNoise μ randn) {dt : ℝ} (hdt : 0 < dt) {n : Nat} (hn : 1 < n) (hodd : n % 2 = 1) (ops traces : Nat) :
    ∃ S : ℝ → ℝ, (∀ f, 0 ≤ S f) ∧ ∃ x : Ω → Nat → Nat → Nat → ℝ, (∀ ω, fastColored S dt n ops traces false (randn ω) =
      .ok ((List.range ops).map fun a => (List.range traces).map fun b => some ((List.range n).map fun i => x ω a b i))) ∧
      ∀ a b i, ∫ ω, x ω a b i * x ω a b i ∂μ ≠ autocov S dt n 0 := by
  classical
  have hnn : ∀ f : ℝ, 0 ≤ (if f = 1 / ((n - 1) * dt) then (1 : ℝ) else 0) := fun f => by split <;> norm_num
  obtain ⟨x, h1, -, h3⟩ := covariance h (fun f => if f = 1 / ((n - 1) * dt) then (1 : ℝ) else 0) hdt (by omega : 0 < n) ops traces
    (fun k _ _ => hnn _)
  refine ⟨_, hnn, x, h1, fun a b i => ?_⟩
  rw [(h3 a b i a b i).2, if_pos rfl]
  have hn1 : (1 : ℝ) < n := by exact_mod_cast hn
  have h2 : ((n / 2 : Nat) : ℝ) = (n - 1) / 2 := by
    have : n = 2 * (n / 2) + 1 := by omega
    have h3 : (n : ℝ) = 2 * ((n / 2 : Nat) : ℝ) + 1 := by exact_mod_cast this
    rw [h3]; ring
  have hm : (n : ℝ) - 1 ≠ 0 := by linarith
  have hspec : autocov (fun f => if f = 1 / ((n - 1) * dt) then (1 : ℝ) else 0) dt n 0 = 0 := by
    unfold autocov
    rw [if_neg (by omega), add_zero]
    refine sum_eq_zero fun k hk => ?_
    rw [mem_Ico] at hk
    have : ¬ (k : ℝ) / (n * dt) = 1 / ((n - 1) * dt) := by
      intro hc
      rw [div_eq_div_iff (by positivity) (by positivity)] at hc
      have h4 : (k : ℝ) * (n - 1) = n := by
        have : dt * ((k : ℝ) * (n - 1)) = dt * n := by linear_combination hc
        exact mul_left_cancel₀ hdt.ne' this
      have h5 : (k : ℝ) * ((n - 1 : Nat) : ℝ) = n := by
        rw [Nat.cast_sub (by omega)]; simpa using h4
      have h6 : k * (n - 1) = n := by exact_mod_cast h5
      obtain ⟨m, rfl⟩ : ∃ m, n = m + 1 := ⟨n - 1, by omega⟩
      simp only [Nat.add_sub_cancel] at h6
      have h7 : m ∣ 1 := (Nat.dvd_add_right (dvd_refl m)).1 ⟨k, by rw [← h6]; ring⟩
      have := Nat.le_of_dvd one_pos h7
      omega
    dsimp only
    rw [if_neg this]
    ring
  rw [hspec]
  apply ne_of_gt
  refine div_pos ?_ (by positivity)
  rw [if_neg (by omega), add_zero]
  have hterm : ∀ k ∈ Ico 1 ((n + 1) / 2), 0 ≤ (if freqGrid dt n k = 1 / ((n - 1) * dt) then (1 : ℝ) else 0) *
      Real.cos (2 * Real.pi * k * ((i : ℤ) - i : ℤ) / n) * (1 / dt) := by
    intro k _
    simp only [sub_self, Int.cast_zero, mul_zero, zero_div, Real.cos_zero, mul_one]
    exact mul_nonneg (hnn _) (by positivity)
  refine lt_of_lt_of_le ?_ (single_le_sum hterm (mem_Ico.2 ⟨le_rfl, by omega⟩ : 1 ∈ Ico 1 ((n + 1) / 2)))
  rw [if_pos]
  · simp only [sub_self, Int.cast_zero, mul_zero, zero_div, Real.cos_zero, mul_one, one_mul]
    positivity
  · unfold freqGrid
    rw [h2]
    field_simp
    norm_num

/-- Pink noise, four samples. -/
example : ∃ (Ω : Type) (_ : MeasurableSpace Ω) (μ : Measure Ω) (_ : IsProbabilityMeasure μ) (randn : Ω → Nat → Nat → Nat → ℝ),
    WhiteNoise μ randn ∧ ∃ x : Ω → Nat → Nat → Nat → ℝ, (∀ ω, fastColored (fun f => 1 / f) 1 4 1 2 false (randn ω) =
      .ok [[some [x ω 0 0 0, x ω 0 0 1, x ω 0 0 2, x ω 0 0 3], some [x ω 0 1 0, x ω 0 1 1, x ω 0 1 2, x ω 0 1 3]]]) ∧
      ∫ ω, x ω 0 0 1 * x ω 0 0 1 ∂μ = 5 / 4 ∧ ∫ ω, x ω 0 0 1 * x ω 0 0 2 ∂μ = -1 / 4 ∧ ∫ ω, x ω 0 0 1 * x ω 0 1 1 ∂μ = 0 := by
  obtain ⟨μ, h1, h2⟩ := whiteNoise_exists
  refine ⟨_, _, μ, h1, _, h2, ?_⟩
  obtain ⟨x, h3, -, h4⟩ := c109_covariance_partial h2 (fun f => 1 / f) one_pos (by norm_num : 0 < 4) rfl 1 2
    (fun k _ _ => by positivity)
  refine ⟨x, h3, ?_, ?_, ?_⟩
  · rw [(h4 0 0 1 0 0 1).2, if_pos rfl]
    unfold autocov
    simp
    norm_num
  · rw [(h4 0 0 1 0 0 2).2, if_pos rfl]
    unfold autocov
    have e1 : 2 * Real.pi * (1 / 4) = Real.pi / 2 := by ring
    have e2 : 2 * Real.pi * (1 / 2) = Real.pi := by ring
    norm_num [e1, e2]
  · rw [(h4 0 0 1 0 1 1).2, if_neg (by simp)]

/-! ## The periodogram -/

/-- `signal.periodogram(x, fs=1/dt, return_onesided=True, scaling=…)` of scipy, entry `k`, by its definition: boxcar window, the mean
is subtracted, the entries that stand for two frequencies are doubled. -/
noncomputable def periodogram (isDensity : Bool) (dt : ℝ) (l : List ℝ) (k : Nat) : ℝ :=
  (if k = 0 ∨ 2 * k = l.length then 1 else 2) * (if isDensity then dt / l.length else 1 / (l.length : ℝ) ^ 2) *
    ‖rfft (fun j => l.getD j 0 - l.sum / l.length) l.length k‖ ^ 2

/-- The sample frequencies that `signal.periodogram` returns. -/
noncomputable def sampleFreq (dt : ℝ) (n k : Nat) : ℝ := k / (n * dt)

/-- All entries of a list, or not-a-number. -/
def allSome {α : Type} : List (Option α) → Option (List α)
  | [] => some []
  | none :: _ => none
  | some a :: l => (allSome l).map (a :: ·)

/-- `NTGColoredNoise.plot_periodogram`, noise.py:650-693: the averaged curve and `deviation_norm`.  `none` is not-a-number.
Simplification: a trace length of zero or `None` is a ValueError. -/
noncomputable def plotPeriodogram (g : ColoredNoise) (nAverage : Nat) (scaling : String) (logPlot : Option String) (drawPlot : Bool)
    (randn : Nat → Nat → Nat → ℝ) : Except PyErr (Option (List ℝ × ℝ)) :=
  match g.nSamples with
  | none => .error .valueError
  | some n => match fastColored g.S g.dt n 1 nAverage false randn with
    | .error e => .error e
    | .ok samples =>
      if scaling ≠ "density" ∧ scaling ≠ "spectrum" then .error .valueError
      else if drawPlot ∧ logPlot ≠ none ∧ logPlot ≠ some "semilogy" ∧ logPlot ≠ some "semilogx" ∧ logPlot ≠ some "loglog" then
        .error .valueError
      else .ok <| (allSome samples.flatten).bind fun traces =>
        if traces.length = 0 then none
        else
          let curve := (List.range (n / 2 + 1)).map fun k =>
            (traces.map fun l => periodogram (scaling = "density") g.dt l k).sum / traces.length
          some (curve, √(∑ k ∈ Ico 1 (n / 2), (curve.getD k 0 - g.S (sampleFreq g.dt n k)) ^ 2))

theorem allSome_map {α β : Type} (f : β → α) (l : List β) : allSome (l.map fun b => some (f b)) = some (l.map f) := by
  induction l with
  | nil => rfl
  | cons a l ih => simp [allSome, ih]

/-- The mean power of white noise. -/
theorem WhiteNoise.power (h : WhiteNoise μ randn) (a b n k : Nat) :
    Integrable (fun ω => Noise.power (randn ω a b) n k) μ ∧ ∫ ω, Noise.power (randn ω a b) n k ∂μ = n := by
  have hp : ∀ ω, Noise.power (randn ω a b) n k =
      (∑ m ∈ range n, Real.cos (2 * Real.pi * m * k / n) * randn ω a b m) *
        (∑ m ∈ range n, Real.cos (2 * Real.pi * m * k / n) * randn ω a b m) +
      (∑ m ∈ range n, Real.sin (2 * Real.pi * m * k / n) * randn ω a b m) *
        (∑ m ∈ range n, Real.sin (2 * Real.pi * m * k / n) * randn ω a b m) := by
    intro ω
    unfold Noise.power
    rw [← Complex.normSq_eq_norm_sq, Complex.normSq_apply]
    have hre : ∀ m : Nat, (randn ω a b m : ℂ) * exp (-(2 * Real.pi * I * m * k / n)) =
        ((randn ω a b m : ℝ) : ℂ) * exp ((-(2 * Real.pi * m * k / n) : ℝ) * I) := by
      intro m
      push_cast
      ring_nf
    have h1 : (rfft (randn ω a b) n k).re = ∑ m ∈ range n, Real.cos (2 * Real.pi * m * k / n) * randn ω a b m := by
      unfold rfft
      rw [Complex.re_sum]
      refine sum_congr rfl fun m _ => ?_
      rw [hre, Complex.re_ofReal_mul, Complex.exp_ofReal_mul_I_re, Real.cos_neg]
      ring
    have h2 : (rfft (randn ω a b) n k).im = -∑ m ∈ range n, Real.sin (2 * Real.pi * m * k / n) * randn ω a b m := by
      unfold rfft
      rw [Complex.im_sum, ← sum_neg_distrib]
      refine sum_congr rfl fun m _ => ?_
      rw [hre, Complex.im_ofReal_mul, Complex.exp_ofReal_mul_I_im, Real.sin_neg]
      ring
    rw [h1, h2]
    ring
  obtain ⟨-, -, c1, c2⟩ := h.linear (fun m => Real.cos (2 * Real.pi * m * k / n)) (fun m => Real.cos (2 * Real.pi * m * k / n)) n a b a b
  obtain ⟨-, -, d1, d2⟩ := h.linear (fun m => Real.sin (2 * Real.pi * m * k / n)) (fun m => Real.sin (2 * Real.pi * m * k / n)) n a b a b
  simp only [hp]
  refine ⟨c1.add d1, ?_⟩
  rw [integral_add c1 d1, c2, d2, if_pos rfl, if_pos rfl, ← sum_add_distrib]
  rw [sum_congr rfl fun (m : Nat) _ => show Real.cos (2 * Real.pi * m * k / n) * Real.cos (2 * Real.pi * m * k / n) +
    Real.sin (2 * Real.pi * m * k / n) * Real.sin (2 * Real.pi * m * k / n) = 1 by
      rw [← sq, ← sq, Real.cos_sq_add_sin_sq]]
  simp

/-- The averaged periodogram, for every number of samples. -/
theorem plotPeriodogram_value (h : WhiteNoise μ randn) (g : ColoredNoise) (hdt : 0 < g.dt) {n : Nat} (hn : 0 < n)
    (hg : g.nSamples = some n) (hS : ∀ k, 0 < k → k ≤ n / 2 → 0 ≤ g.S (freqGrid g.dt n k)) {nAverage : Nat} (hav : 0 < nAverage)
    (scaling : String) (hsc : scaling = "density" ∨ scaling = "spectrum") (draw : Bool) :
    ∃ curve : Ω → List ℝ, (∀ ω, plotPeriodogram g nAverage scaling none draw (randn ω) =
      .ok (some (curve ω, √(∑ k ∈ Ico 1 (n / 2), ((curve ω).getD k 0 - g.S (k / (n * g.dt))) ^ 2)))) ∧
    (∀ ω, (curve ω).length = n / 2 + 1) ∧ ∀ k, 0 < k → k < n / 2 → Integrable (fun ω => (curve ω).getD k 0) μ ∧
      ∫ ω, (curve ω).getD k 0 ∂μ = g.S (freqGrid g.dt n k) * if scaling = "density" then 1 else 1 / (n * g.dt) := by
  have hn' : (n : ℝ) ≠ 0 := by exact_mod_cast hn.ne'
  have hav' : (nAverage : ℝ) ≠ 0 := by exact_mod_cast hav.ne'
  set tr : Ω → Nat → List ℝ := fun ω b => (List.range n).map fun i : Nat => ∑ m ∈ range n,
    kernR (fun k => √(density g.S g.dt n k / s0 g.dt)) n ((i : ℤ) - m) * randn ω 0 b m with htr
  have hfc : ∀ ω, fastColored g.S g.dt n 1 nAverage false (randn ω) = .ok [(List.range nAverage).map fun b => some (tr ω b)] :=
    fun ω => fastColored_eq g.S hdt hn 1 nAverage hS (randn ω)
  have hcol : ∀ ω b, b < nAverage → colour g.S g.dt n (randn ω 0 b) = some (tr ω b) := by
    intro ω b hb
    have h1 := hfc ω
    unfold fastColored at h1
    rw [if_neg hdt.ne'] at h1
    simp only [actualN, Bool.false_eq_true, if_false] at h1
    rw [if_neg hn.ne'] at h1
    simp only [List.range_one, List.map_cons, List.map_nil, Except.ok.injEq, List.cons.injEq, and_true] at h1
    exact List.map_inj_left.1 h1 b (List.mem_range.2 hb)
  have hlen : ∀ ω b, (tr ω b).length = n := fun ω b => by simp [htr]
  have hsum : ∀ ω b, b < nAverage → (tr ω b).sum = 0 := by
    intro ω b hb
    exact c76_sum_zero g.S g.dt n 1 nAverage false (randn ω) _ (hfc ω) _ (List.mem_singleton.2 rfl) _
      (List.mem_map.2 ⟨b, List.mem_range.2 hb, rfl⟩)
  have hper : ∀ ω b, b < nAverage → ∀ k, 0 < k → k < n / 2 → periodogram (scaling = "density") g.dt (tr ω b) k =
      (2 * (if scaling = "density" then g.dt / n else 1 / (n : ℝ) ^ 2) * (g.S (freqGrid g.dt n k) * (1 / g.dt / 2))) *
        Noise.power (randn ω 0 b) n k := by
    intro ω b hb k hk hk2
    have h1 := density_pos_power g.S g.dt hn (randn ω 0 b) (tr ω b) (hcol ω b hb) k hk (by omega)
    unfold periodogram
    rw [hlen, hsum ω b hb, if_neg (by omega)]
    simp only [zero_div, sub_zero, decide_eq_true_eq]
    unfold Noise.power at h1 ⊢
    rw [h1]
    ring
  refine ⟨fun ω => (List.range (n / 2 + 1)).map fun k =>
    (((List.range nAverage).map (tr ω)).map fun l => periodogram (scaling = "density") g.dt l k).sum / nAverage, fun ω => ?_,
    fun ω => by simp, fun k hk hk2 => ?_⟩
  · unfold plotPeriodogram
    rw [hg]
    simp only [hfc ω]
    rw [if_neg (by rcases hsc with rfl | rfl <;> simp), if_neg (by simp)]
    simp only [List.flatten_cons, List.flatten_nil, List.append_nil, allSome_map, Option.bind_some, List.length_map,
      List.length_range, hav.ne', if_false]
    rfl
  · have hcurve : ∀ ω, ((List.range (n / 2 + 1)).map fun k => (((List.range nAverage).map (tr ω)).map
        fun l => periodogram (scaling = "density") g.dt l k).sum / nAverage).getD k 0 =
        (∑ b ∈ range nAverage, (2 * (if scaling = "density" then g.dt / n else 1 / (n : ℝ) ^ 2) *
          (g.S (freqGrid g.dt n k) * (1 / g.dt / 2))) * Noise.power (randn ω 0 b) n k) / nAverage := by
      intro ω
      rw [List.getD_eq_getElem?_getD, List.getElem?_map, List.getElem?_range (by omega)]
      simp only [Option.map_some, Option.getD_some, List.map_map]
      rw [show ((fun l => periodogram (decide (scaling = "density")) g.dt l k) ∘ tr ω) =
        fun b => periodogram (decide (scaling = "density")) g.dt (tr ω b) k from rfl, sum_list_range]
      congr 1
      exact sum_congr rfl fun b hb => hper ω b (mem_range.1 hb) k hk hk2
    simp only [hcurve]
    have hi : ∀ b ∈ range nAverage, Integrable (fun ω => (2 * (if scaling = "density" then g.dt / n else 1 / (n : ℝ) ^ 2) *
          (g.S (freqGrid g.dt n k) * (1 / g.dt / 2))) * Noise.power (randn ω 0 b) n k) μ :=
      fun b _ => (h.power 0 b n k).1.const_mul _
    refine ⟨(integrable_finsetSum _ hi).div_const _, ?_⟩
    rw [integral_div, integral_finsetSum _ hi]
    rw [sum_congr rfl fun b _ => by rw [integral_const_mul, (h.power 0 b n k).2]]
    rw [sum_const, card_range, nsmul_eq_mul]
    have := hdt.ne'
    split <;> field_simp

/-- **C109** (partial): for an even number of samples the expected periodogram is the spectral density, at all frequencies that enter
the deviation norm; the deviation norm is the distance of the averaged periodogram and the spectral density.
Missing: odd numbers of samples (`c109_violated_periodogram_odd`), the scaling `spectrum` (`c109_violated_scaling`). -/
theorem c109_periodogram_partial (h : WhiteNoise μ randn) (g : ColoredNoise) (hdt : 0 < g.dt) {n : Nat} (hn : 0 < n) (hev : n % 2 = 0)
    (hg : g.nSamples = some n) (hS : ∀ k : Nat, 0 < k → k ≤ n / 2 → 0 ≤ g.S (k / (n * g.dt))) {nAverage : Nat} (hav : 0 < nAverage)
    (draw : Bool) :
    ∃ curve : Ω → List ℝ, (∀ ω, plotPeriodogram g nAverage "density" none draw (randn ω) =
      .ok (some (curve ω, √(∑ k ∈ Ico 1 (n / 2), ((curve ω).getD k 0 - g.S (k / (n * g.dt))) ^ 2)))) ∧
    (∀ ω, (curve ω).length = n / 2 + 1) ∧ ∀ k : Nat, 0 < k → k < n / 2 → Integrable (fun ω => (curve ω).getD k 0) μ ∧
      ∫ ω, (curve ω).getD k 0 ∂μ = g.S (k / (n * g.dt)) := by
  obtain ⟨c, h1, h2, h3⟩ := plotPeriodogram_value h g hdt hn hg
    (fun k hk hk2 => by rw [freqGrid_even hdt.ne' hn hev]; exact hS k hk hk2) hav "density" (Or.inl rfl) draw
  refine ⟨c, h1, h2, fun k hk hk2 => ⟨(h3 k hk hk2).1, (h3 k hk hk2).2.trans ?_⟩⟩
  rw [freqGrid_even hdt.ne' hn hev]
  simp

/-- With the scaling `spectrum` the expected curve is the density times the frequency spacing: the deviation norm compares a power with
a density. -/
theorem c109_violated_scaling (h : WhiteNoise μ randn) (g : ColoredNoise) (hdt : 0 < g.dt) {n : Nat} (hn : 0 < n) (hev : n % 2 = 0)
    (hg : g.nSamples = some n) (hS : ∀ k : Nat, 0 < k → k ≤ n / 2 → 0 < g.S (k / (n * g.dt))) (hne : n * g.dt ≠ 1) {nAverage : Nat}
    (hav : 0 < nAverage) (draw : Bool) :
    ∃ curve : Ω → List ℝ, (∀ ω, plotPeriodogram g nAverage "spectrum" none draw (randn ω) =
      .ok (some (curve ω, √(∑ k ∈ Ico 1 (n / 2), ((curve ω).getD k 0 - g.S (k / (n * g.dt))) ^ 2)))) ∧
    ∀ k : Nat, 0 < k → k < n / 2 → ∫ ω, (curve ω).getD k 0 ∂μ = g.S (k / (n * g.dt)) * (1 / (n * g.dt)) ∧
      ∫ ω, (curve ω).getD k 0 ∂μ ≠ g.S (k / (n * g.dt)) := by
  obtain ⟨c, h1, h2, h3⟩ := plotPeriodogram_value h g hdt hn hg
    (fun k hk hk2 => by rw [freqGrid_even hdt.ne' hn hev]; exact (hS k hk hk2).le) hav "spectrum" (Or.inr rfl) draw
  refine ⟨c, h1, fun k hk hk2 => ?_⟩
  have h4 := (h3 k hk hk2).2
  rw [freqGrid_even hdt.ne' hn hev, if_neg (by decide)] at h4
  refine ⟨h4, fun hc => ?_⟩
  rw [h4] at hc
  have h5 := hS k hk (by omega)
  have h6 : (1 : ℝ) / (n * g.dt) = 1 := by
    have : g.S (k / (n * g.dt)) * (1 / (n * g.dt)) = g.S (k / (n * g.dt)) * 1 := by rw [hc, mul_one]
    exact mul_left_cancel₀ h5.ne' this
  have hn' : (0 : ℝ) < n := by exact_mod_cast hn
  rw [div_eq_one_iff_eq (by positivity)] at h6
  exact hne h6.symm

/-- For an odd number of samples the expected periodogram is the density at other frequencies, `k / ((n - 1) dt)`. -/
theorem c109_violated_periodogram_odd (h : WhiteNoise μ randn) (g : ColoredNoise) (hdt : 0 < g.dt) {n : Nat} (hn : 1 < n)
    (hodd : n % 2 = 1) (hg : g.nSamples = some n) (hS : ∀ f, 0 ≤ g.S f) (hinj : Set.InjOn g.S (Set.Ioi 0)) {nAverage : Nat}
    (hav : 0 < nAverage) (draw : Bool) :
    ∃ curve : Ω → List ℝ, (∀ ω, plotPeriodogram g nAverage "density" none draw (randn ω) =
      .ok (some (curve ω, √(∑ k ∈ Ico 1 (n / 2), ((curve ω).getD k 0 - g.S (k / (n * g.dt))) ^ 2)))) ∧
    ∀ k : Nat, 0 < k → k < n / 2 → ∫ ω, (curve ω).getD k 0 ∂μ = g.S (k / ((n - 1) * g.dt)) ∧
      ∫ ω, (curve ω).getD k 0 ∂μ ≠ g.S (k / (n * g.dt)) := by
  obtain ⟨c, h1, h2, h3⟩ := plotPeriodogram_value h g hdt (by omega : 0 < n) hg (fun k _ _ => hS _) hav "density" (Or.inl rfl) draw
  refine ⟨c, h1, fun k hk hk2 => ?_⟩
  have h4 := (h3 k hk hk2).2
  have hn1 : (1 : ℝ) < n := by exact_mod_cast hn
  have hm : (n : ℝ) - 1 ≠ 0 := by linarith
  have hm0 : (0 : ℝ) < n - 1 := by linarith
  have hk' : (0 : ℝ) < k := by exact_mod_cast hk
  have hf : freqGrid g.dt n k = k / ((n - 1) * g.dt) := by
    have h2 : ((n / 2 : Nat) : ℝ) = (n - 1) / 2 := by
      have : n = 2 * (n / 2) + 1 := by omega
      have h3 : (n : ℝ) = 2 * ((n / 2 : Nat) : ℝ) + 1 := by exact_mod_cast this
      rw [h3]; ring
    unfold freqGrid
    rw [h2]
    field_simp
    ring
  rw [hf, if_pos rfl, mul_one] at h4
  refine ⟨h4, fun hc => ?_⟩
  rw [h4] at hc
  have h5 := hinj (Set.mem_Ioi.2 (by positivity)) (Set.mem_Ioi.2 (by positivity)) hc
  rw [div_eq_div_iff (by positivity) (by positivity)] at h5
  have : (k : ℝ) * g.dt = 0 := by linear_combination h5
  have : 0 < (k : ℝ) * g.dt := by positivity
  linarith

/-- Other names for the scaling, and for the plot when one is drawn, are rejected. -/
theorem c109_rejects (g : ColoredNoise) (hdt : g.dt ≠ 0) {n : Nat} (hn : 0 < n) (hg : g.nSamples = some n) (nAverage : Nat)
    (scaling : String) (logPlot : Option String) (draw : Bool) (randn : Nat → Nat → Nat → ℝ) :
    ((scaling ∉ ["density", "spectrum"] ∨ (draw = true ∧ logPlot ∉ [none, some "semilogy", some "semilogx", some "loglog"])) ↔
      plotPeriodogram g nAverage scaling logPlot draw randn = .error .valueError) := by
  obtain ⟨a, ha, -⟩ := (c76_shape g.S g.dt n 1 nAverage false randn).2.2 hdt hn.ne'
  unfold plotPeriodogram
  rw [hg]
  simp only [ha, List.mem_cons, List.not_mem_nil, or_false, not_or]
  by_cases h1 : scaling ≠ "density" ∧ scaling ≠ "spectrum"
  · rw [if_pos h1]
    simp only [iff_true]
    exact Or.inl h1
  · rw [if_neg h1]
    by_cases h2 : draw = true ∧ logPlot ≠ none ∧ logPlot ≠ some "semilogy" ∧ logPlot ≠ some "semilogx" ∧ logPlot ≠ some "loglog"
    · rw [if_pos h2]
      simp only [iff_true]
      exact Or.inr h2
    · rw [if_neg h2]
      simp only [reduceCtorEq, iff_false, not_or]
      exact ⟨h1, h2⟩

/-- Six samples of a Lorentzian, averaged over three traces. -/
example : ∃ (Ω : Type) (_ : MeasurableSpace Ω) (μ : Measure Ω) (_ : IsProbabilityMeasure μ) (randn : Ω → Nat → Nat → Nat → ℝ),
    WhiteNoise μ randn ∧ ∃ curve : Ω → List ℝ, (∀ ω, ∃ d, plotPeriodogram ⟨fun f => 1 / (1 + f ^ 2), 1 / 6, some 6, none, none, 1⟩ 3
      "density" none true (randn ω) = .ok (some (curve ω, d))) ∧ ∫ ω, (curve ω).getD 2 0 ∂μ = 1 / 5 := by
  obtain ⟨μ, h1, h2⟩ := whiteNoise_exists
  refine ⟨_, _, μ, h1, _, h2, ?_⟩
  obtain ⟨c, h3, -, h4⟩ := c109_periodogram_partial h2 ⟨fun f => 1 / (1 + f ^ 2), 1 / 6, some 6, none, none, 1⟩ (by norm_num)
    (by norm_num : 0 < 6) rfl rfl (fun k _ _ => by positivity) (by norm_num : 0 < 3) true
  refine ⟨c, fun ω => ⟨_, h3 ω⟩, ?_⟩
  rw [(h4 2 (by norm_num) (by norm_num)).2]
  norm_num

/-- Five samples of a Lorentzian. -/
example : ∃ (Ω : Type) (_ : MeasurableSpace Ω) (μ : Measure Ω) (_ : IsProbabilityMeasure μ) (randn : Ω → Nat → Nat → Nat → ℝ),
    WhiteNoise μ randn ∧ ∃ curve : Ω → List ℝ, (∀ ω, ∃ d, plotPeriodogram ⟨fun f => 1 / (1 + f ^ 2), 1, some 5, none, none, 1⟩ 3
      "density" none true (randn ω) = .ok (some (curve ω, d))) ∧ ∫ ω, (curve ω).getD 1 0 ∂μ = 16 / 17 := by
  obtain ⟨μ, h1, h2⟩ := whiteNoise_exists
  refine ⟨_, _, μ, h1, _, h2, ?_⟩
  obtain ⟨c, h3, h4⟩ := c109_violated_periodogram_odd h2 ⟨fun f => 1 / (1 + f ^ 2), 1, some 5, none, none, 1⟩ one_pos
    (by norm_num : 1 < 5) rfl rfl (fun f => by positivity) (fun x hx y hy hxy => by
      simp only at hxy
      rw [Set.mem_Ioi] at hx hy
      rw [div_eq_div_iff (by positivity) (by positivity)] at hxy
      have h5 : (x - y) * (x + y) = 0 := by linear_combination -hxy
      rcases mul_eq_zero.1 h5 with h6 | h6
      · linarith
      · linarith) (by norm_num : 0 < 3) true
  refine ⟨c, fun ω => ⟨_, h3 ω⟩, ?_⟩
  rw [(h4 1 (by norm_num) (by norm_num)).1]
  norm_num

/-- The hypotheses of `c109_generator_partial` (three samples cut out of six), `c109_violated` (three samples) and
`c109_violated_scaling` (four samples) can be met. -/
example : ∃ (Ω : Type) (_ : MeasurableSpace Ω) (μ : Measure Ω) (_ : IsProbabilityMeasure μ) (randn : Ω → Nat → Nat → Nat → ℝ),
    (∃ (g : ColoredNoise) (x : Ω → Nat → Nat → Nat → ℝ), ColoredNoise.new (fun f => 1 / f) 1 (some 3) (some 1) (some 1) 2 = .ok g ∧
      (∀ ω, g.draw (randn ω) = .ok [[some [x ω 0 0 0, x ω 0 0 1, x ω 0 0 2]]]) ∧
      ∫ ω, x ω 0 0 2 * x ω 0 0 2 ∂μ = 5 / 3) ∧
    (∃ (S : ℝ → ℝ) (x : Ω → Nat → Nat → Nat → ℝ), (∀ ω, fastColored S 1 3 1 1 false (randn ω) =
      .ok [[some [x ω 0 0 0, x ω 0 0 1, x ω 0 0 2]]]) ∧ ∫ ω, x ω 0 0 2 * x ω 0 0 2 ∂μ ≠ autocov S 1 3 0) ∧
    ∃ curve : Ω → List ℝ, ∫ ω, (curve ω).getD 1 0 ∂μ = 1 := by
  obtain ⟨μ, h1, h2⟩ := whiteNoise_exists
  refine ⟨_, _, μ, h1, fun ω a b j => ω (a, b, j), ?_, ?_, ?_⟩
  · obtain ⟨g, x, h3, h4, -, h6⟩ := c109_generator_partial h2 (fun f => 1 / f) one_pos (by norm_num : 0 < 3) one_pos one_pos 2
      (by norm_num) (by decide) (fun k _ _ => by positivity)
    refine ⟨g, x, h3, h4, ?_⟩
    rw [(h6 0 0 2 0 0 2).2, if_pos rfl]
    unfold autocov
    simp [show (6 + 1) / 2 = 3 from rfl, show Ico 1 3 = {1, 2} from rfl]
    norm_num
  · obtain ⟨S, -, x, h3, h4⟩ := c109_violated h2 one_pos (by norm_num : 1 < 3) rfl 1 1
    exact ⟨S, x, h3, h4 0 0 2⟩
  · obtain ⟨c, -, h4⟩ := c109_violated_scaling h2 ⟨fun f => 4, 1, some 4, none, none, 1⟩ one_pos (by norm_num : 0 < 4) rfl rfl
      (fun k _ _ => by norm_num) (by norm_num) (by norm_num : 0 < 3) true
    refine ⟨c, ?_⟩
    rw [(h4 1 (by norm_num) (by norm_num)).1]
    norm_num

end Cov

end Verif.Noise
