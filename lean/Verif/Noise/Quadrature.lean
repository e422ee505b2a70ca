import Verif.Noise.Variance
import Mathlib.MeasureTheory.Function.Jacobian
import Mathlib.MeasureTheory.Integral.DominatedConvergence
import Mathlib.Probability.Distributions.Gaussian.Real
import Mathlib.MeasureTheory.Function.Floor

/-!
# The deterministic samples as quadrature points

Averages over the deterministic samples converge to averages over the normal distribution.
-/

namespace Verif.Noise
open Verif Real MeasureTheory ProbabilityTheory Filter Set
open scoped Topology

/-- The inverse of the error function is continuous inside its domain. -/
theorem IsErfinv.continuousAt {e : ℝ → ℝ} (he : IsErfinv e) {y : ℝ} (h1 : -1 < y) (h2 : y < 1) : ContinuousAt e y := by
  have hm : StrictMonoOn e (Ioo (-1) 1) := fun a ha b hb h => he.lt ha.1 hb.2 h
  refine hm.continuousAt_of_image_mem_nhds (Ioo_mem_nhds h1 h2) ?_
  have : e '' Ioo (-1) 1 = univ := by
    refine eq_univ_of_forall fun x => ⟨erf x, ⟨neg_one_lt_erf x, erf_lt_one x⟩, ?_⟩
    exact erf_strictMono.injective (he _ (neg_one_lt_erf x) (erf_lt_one x))
  rw [this]
  exact univ_mem

theorem IsErfinv.left {e : ℝ → ℝ} (he : IsErfinv e) (x : ℝ) : e (erf x) = x :=
  erf_strictMono.injective (he _ (neg_one_lt_erf x) (erf_lt_one x))

/-- Substitution of the cumulative distribution. -/
theorem quantile_integral {e : ℝ → ℝ} (he : IsErfinv e) (f : ℝ → ℝ) :
    ∫ u in Ioo (0 : ℝ) 1, f (e (2 * u - 1)) = ∫ x : ℝ, 1 / √π * exp (-x ^ 2) * f x := by
  have himg : (fun x => (erf x + 1) / 2) '' univ = Ioo (0 : ℝ) 1 := by
    ext u
    constructor
    · rintro ⟨x, -, rfl⟩
      have h1 := neg_one_lt_erf x
      have h2 := erf_lt_one x
      constructor <;> simp only <;> linarith
    · rintro ⟨h1, h2⟩
      exact ⟨e (2 * u - 1), mem_univ _, by simp only; rw [he _ (by linarith) (by linarith)]; ring⟩
  have hinj : InjOn (fun x => (erf x + 1) / 2) univ := fun a _ b _ h => by
    simp only at h
    exact erf_strictMono.injective (by linarith)
  have hd : ∀ x ∈ univ, HasDerivWithinAt (fun x => (erf x + 1) / 2) (1 / √π * exp (-x ^ 2)) univ x := fun x _ => by
    have := ((erf_hasDerivAt x).add_const 1).div_const 2
    refine (this.congr_deriv ?_).hasDerivWithinAt
    ring
  have := integral_image_eq_integral_abs_deriv_smul MeasurableSet.univ hd hinj fun u => f (e (2 * u - 1))
  rw [himg, setIntegral_univ] at this
  rw [this]
  refine integral_congr_ae (ae_of_all _ fun x => ?_)
  simp only [smul_eq_mul]
  rw [abs_of_pos (by positivity), show 2 * ((erf x + 1) / 2) - 1 = erf x by ring, he.left]

/-- The same as an average over the normal distribution. -/
theorem quantile_gaussian {e : ℝ → ℝ} (he : IsErfinv e) (f : ℝ → ℝ) (hf : Measurable f) (s : ℝ) :
    ∫ u in Ioo (0 : ℝ) 1, f (s * √2 * e (2 * u - 1)) = ∫ x, f x ∂(gaussianReal 0 (NNReal.mk (s ^ 2) (sq_nonneg _))) := by
  rw [quantile_integral he fun x => f (s * √2 * x)]
  have h1 : ∫ x, f (s * √2 * x) ∂(gaussianReal 0 (1 / 2)) = ∫ x : ℝ, 1 / √π * exp (-x ^ 2) * f (s * √2 * x) := by
    rw [integral_gaussianReal_eq_integral_smul (by norm_num)]
    refine integral_congr_ae (ae_of_all _ fun x => ?_)
    simp only [gaussianPDFReal, smul_eq_mul]
    norm_num
    left
    have : √2 ≠ 0 := by positivity
    field_simp
  rw [← h1]
  have h2 := gaussianReal_map_const_mul (μ := 0) (v := 1 / 2) (s * √2)
  have h3 : (NNReal.mk ((s * √2) ^ 2) (sq_nonneg _)) * (1 / 2) = NNReal.mk (s ^ 2) (sq_nonneg _) := by
    ext
    simp [mul_pow]
  rw [mul_zero] at h2
  rw [← h3, ← h2, integral_map (by fun_prop) hf.aestronglyMeasurable]

/-- The cell of a point of the unit interval. -/
noncomputable def cellOf (n : Nat) (u : ℝ) : Nat := ⌊n * u⌋₊

/-- A sum over the sample points as an integral over the unit interval. -/
theorem sum_eq_integral (F : Nat → ℝ) {n : Nat} (hn : 0 < n) :
    ∫ u in Ioo (0 : ℝ) 1, F (cellOf n u) = (∑ i ∈ Finset.range n, F i) / n := by
  have hn' : (0 : ℝ) < n := by exact_mod_cast hn
  rw [← integral_Ico_eq_integral_Ioo]
  have hU : Ico (0 : ℝ) 1 = ⋃ i ∈ Finset.range n, Ico ((i : ℝ) / n) ((i + 1) / n) := by
    ext u
    simp only [mem_Ico, Finset.mem_range, mem_iUnion, exists_prop]
    constructor
    · rintro ⟨h1, h2⟩
      refine ⟨⌊n * u⌋₊, ?_, ?_, ?_⟩
      · rw [Nat.floor_lt (by positivity)]; nlinarith
      · rw [div_le_iff₀ hn']
        have := Nat.floor_le (show 0 ≤ n * u by positivity)
        linarith
      · rw [lt_div_iff₀ hn']
        have := Nat.lt_floor_add_one (n * u)
        linarith
    · rintro ⟨i, hi, h1, h2⟩
      refine ⟨le_trans (by positivity) h1, lt_of_lt_of_le h2 ?_⟩
      rw [div_le_one hn']
      exact_mod_cast hi
  have hcell : ∀ i : Nat, ∀ u ∈ Ico ((i : ℝ) / n) ((i + 1) / n), cellOf n u = i := by
    rintro i u ⟨h1, h2⟩
    rw [div_le_iff₀ hn'] at h1
    rw [lt_div_iff₀ hn'] at h2
    exact (Nat.floor_eq_iff (by nlinarith [(Nat.cast_nonneg i : (0 : ℝ) ≤ i)])).mpr ⟨by linarith, by linarith⟩
  have hint : ∀ i ∈ Finset.range n, IntegrableOn (fun u => F (cellOf n u)) (Ico ((i : ℝ) / n) ((i + 1) / n)) := by
    intro i _
    refine IntegrableOn.congr_fun (f := fun _ => F i) (integrableOn_const (by simp)) (fun u hu => ?_) measurableSet_Ico
    rw [hcell i u hu]
  rw [hU, integral_biUnion_finset _ (fun i _ => measurableSet_Ico) ?_ hint, Finset.sum_div]
  · refine Finset.sum_congr rfl fun i _ => ?_
    rw [setIntegral_congr_fun (g := fun _ => F i) measurableSet_Ico fun u hu => by rw [hcell i u hu]]
    rw [setIntegral_const, smul_eq_mul, measureReal_def, Real.volume_Ico, ENNReal.toReal_ofReal]
    · field_simp; ring
    · have : (i : ℝ) / n ≤ (i + 1) / n := by gcongr; linarith
      linarith
  · intro i _ j _ hij
    refine Set.disjoint_left.mpr fun u hu hv => hij ?_
    rw [← hcell i u hu, ← hcell j u hv]

theorem pt_cell_tendsto {u : ℝ} (h0 : 0 < u) : Tendsto (fun n : Nat => pt n (cellOf n u)) atTop (𝓝 (2 * u - 1)) := by
  unfold pt cellOf
  have h1 : Tendsto (fun n : Nat => (⌊(n : ℝ) * u⌋₊ : ℝ) / n) atTop (𝓝 u) := by
    have := (tendsto_nat_floor_mul_div_atTop (R := ℝ) h0.le).comp tendsto_natCast_atTop_atTop
    refine this.congr fun n => ?_
    simp [mul_comm]
  have h2 : Tendsto (fun n : Nat => 1 / (n : ℝ)) atTop (𝓝 0) := tendsto_one_div_atTop_nhds_zero_nat
  have h3 := ((h1.const_mul 2).add h2).sub_const 1
  rw [add_zero] at h3
  refine h3.congr fun n => ?_
  ring

/-- Averages of a bounded continuous function over the deterministic samples converge to its average over the normal
distribution, also if the standard deviations used for the samples only converge. -/
theorem samples_tendsto {e : ℝ → ℝ} (he : IsErfinv e) {f : ℝ → ℝ} (hf : Continuous f) {M : ℝ} (hM : ∀ x, |f x| ≤ M) {s : Nat → ℝ} {σ : ℝ}
    (hs : Tendsto s atTop (𝓝 σ)) :
    Tendsto (fun n : Nat => (∑ i ∈ Finset.range n, f (s n * √2 * e (pt n i))) / n) atTop
      (𝓝 (∫ x, f x ∂(gaussianReal 0 (NNReal.mk (σ ^ 2) (sq_nonneg _))))) := by
  rw [← quantile_gaussian he f hf.measurable σ]
  have key : Tendsto (fun n : Nat => ∫ u in Ioo (0 : ℝ) 1, f (s n * √2 * e (pt n (cellOf n u)))) atTop
      (𝓝 (∫ u in Ioo (0 : ℝ) 1, f (σ * √2 * e (2 * u - 1)))) := by
    refine tendsto_integral_of_dominated_convergence (fun _ => M) (fun n => ?_) (integrableOn_const (by simp)) (fun n => ?_) ?_
    · have hmeas : Measurable fun u : ℝ => cellOf n u := Measurable.nat_floor (measurable_const_mul _)
      have : Measurable fun k : Nat => f (s n * √2 * e (pt n k)) := measurable_from_top
      exact (this.comp hmeas).aestronglyMeasurable
    · exact ae_of_all _ fun u => by rw [Real.norm_eq_abs]; exact hM _
    · refine (ae_restrict_iff' measurableSet_Ioo).mpr (ae_of_all _ fun u hu => ?_)
      have h1 := (he.continuousAt (y := 2 * u - 1) (by linarith [hu.1]) (by linarith [hu.2])).tendsto.comp (pt_cell_tendsto hu.1)
      exact (hf.tendsto _).comp ((hs.mul_const _).mul h1)
  refine key.congr' ?_
  filter_upwards [eventually_gt_atTop 0] with n hn
  exact sum_eq_integral (fun i => f (s n * √2 * e (pt n i))) hn

/-- The variance of the unit samples converges to that of the distribution. -/
theorem V_tendsto {e : ℝ → ℝ} (he : IsErfinv e) : Tendsto (V e) atTop (𝓝 (1 / 2)) := by
  have hsum : ∀ n, V e n = (∑ i ∈ Finset.range n, e (pt n i) ^ 2) / n := fun n => by
    unfold V
    rw [Finset.sum_range]
    congr 1
    rw [← List.sum_ofFn, List.ofFn_eq_map, ← List.map_coe_finRange_eq_range, List.map_map]
    rfl
  have hlim : ∀ M : ℝ, 0 ≤ M → Tendsto (fun n : Nat => (∑ i ∈ Finset.range n, min (e (pt n i) ^ 2) M) / n) atTop
      (𝓝 (∫ x : ℝ, 1 / √π * exp (-x ^ 2) * min (x ^ 2) M)) := by
    intro M hM
    have h := samples_tendsto he (f := fun x => min ((x / √2) ^ 2) M) (by fun_prop) (M := M) (fun x => by
      rw [abs_of_nonneg (le_min (sq_nonneg _) hM)]; exact min_le_right _ _) (s := fun _ => 1) tendsto_const_nhds
    rw [← quantile_gaussian he _ (by fun_prop) 1] at h
    have h2 : √2 ≠ 0 := by positivity
    have hc : ∀ x : ℝ, 1 * √2 * x / √2 = x := fun x => by field_simp
    simp only [hc] at h
    rwa [quantile_integral he fun x => min (x ^ 2) M] at h
  have hint : Integrable fun x : ℝ => 1 / √π * exp (-x ^ 2) * x ^ 2 := by
    have := (integrable_rpow_mul_exp_neg_mul_sq (b := 1) one_pos (s := 2) (by norm_num)).const_mul (1 / √π)
    refine this.congr (ae_of_all _ fun x => ?_)
    simp only [Real.rpow_ofNat, neg_mul, one_mul]
    ring
  have hval : ∫ x : ℝ, 1 / √π * exp (-x ^ 2) * x ^ 2 = 1 / 2 := by
    have hv : ∫ x, x ^ 2 ∂(gaussianReal 0 (1 / 2)) = 1 / 2 := by
      have := variance_fun_id_gaussianReal (μ := 0) (v := 1 / 2)
      rw [variance_eq_integral (by fun_prop), integral_id_gaussianReal] at this
      simpa using this
    rw [← hv, integral_gaussianReal_eq_integral_smul (by norm_num)]
    refine integral_congr_ae (ae_of_all _ fun x => ?_)
    simp only [gaussianPDFReal, smul_eq_mul]
    norm_num
    left
    have : √2 ≠ 0 := by positivity
    field_simp
  have htrunc : Tendsto (fun M : Nat => ∫ x : ℝ, 1 / √π * exp (-x ^ 2) * min (x ^ 2) M) atTop (𝓝 (1 / 2)) := by
    rw [← hval]
    refine tendsto_integral_of_dominated_convergence (fun x => 1 / √π * exp (-x ^ 2) * x ^ 2)
      (fun n => Continuous.aestronglyMeasurable (by fun_prop)) hint (fun n => ae_of_all _ fun x => ?_) (ae_of_all _ fun x => ?_)
    · rw [Real.norm_eq_abs, abs_of_nonneg (mul_nonneg (by positivity) (le_min (sq_nonneg _) (by positivity)))]
      exact mul_le_mul_of_nonneg_left (min_le_left _ _) (by positivity)
    · refine Tendsto.const_mul _ (tendsto_const_nhds.congr' ?_)
      filter_upwards [eventually_ge_atTop ⌈x ^ 2⌉₊] with M hM
      rw [min_eq_left]
      exact (Nat.le_ceil _).trans (by exact_mod_cast hM)
  refine tendsto_order.mpr ⟨fun a ha => ?_, fun a ha => ?_⟩
  · obtain ⟨M, hM⟩ := ((tendsto_order.mp htrunc).1 a ha).exists
    filter_upwards [(tendsto_order.mp (hlim M (by positivity))).1 a hM] with n hn
    refine hn.trans_le ?_
    rw [hsum]
    gcongr
    exact min_le_left _ _
  · filter_upwards [eventually_gt_atTop 0] with n hn
    exact (V_lt_half he hn).trans ha

end Verif.Noise
