import Verif.Cost.Sensitivity
import Mathlib.Analysis.Calculus.MeanValue
import Mathlib.Analysis.Calculus.Deriv.Star

/-!
# C136: the time steps of the solver and continuous controls

The solver holds the amplitudes constant during each time step (solver_algorithms.py:885-953, `_compute_dyn_gen` and `_compute_propagation`).  Controls which vary
continuously are sampled; the propagator and the infidelity of the samples are compared with the solution of the Schroedinger equation
for the continuous controls.
-/

namespace Verif.Cost
open Verif Verif.Operator Verif.Solver Matrix

section
open scoped Matrix.Norms.L2Operator
variable {n : Type} [Fintype n] [DecidableEq n]

/-! ## Specification -/

/-- `X` solves the Schroedinger equation with the Hamiltonian `H` between the times 0 and `S`.  Derivatives from the right allow for
Hamiltonians with jumps. -/
structure Evolves (H X : ℝ → Matrix n n ℂ) (S : ℝ) : Prop where
  cont : ContinuousOn X (Set.Icc 0 S)
  deriv : ∀ s ∈ Set.Ico 0 S, HasDerivWithinAt X ((-Complex.I) • (H s * X s)) (Set.Ici s) s

/-- The time at which step `t` starts. -/
def gridPoint {N : Nat} (σ : Fin N → ℝ) (t : Nat) : ℝ := ∑ k : Fin N, if (k : Nat) < t then σ k else 0

/-- The Hamiltonian with the continuous controls `u`. -/
noncomputable def continuousHam {a : Nat} (D : ℝ → Matrix n n ℂ) (C : Fin a → Matrix n n ℂ) (u : ℝ → Fin a → ℝ) (s : ℝ) : Matrix n n ℂ :=
  D s + ∑ c, ((u s c : ℝ) : ℂ) • C c

/-- The solver, whatever has been read before, ends with a propagator at distance at most `δ` from `V`, and `OperationInfidelity` differs
from the infidelity of `V` by at most `2 δ`. -/
def Simulates (p : SPar n n) (τ : List ℝ) (cl : Closest) (cs : Option (List n)) (T : Matrix (CompIdx cs) (CompIdx cs) ℂ) (mcu : Bool)
    (u : Pulse) (V : Matrix n n ℂ) (δ : ℝ) : Prop :=
  ∀ st, Ready p τ u st → ∃ f F c, (readFwd p.cfg st).1 = .ok f ∧ f.getLast? = some F ∧
    (costOn (opCosts cl cs T mcu) p.cfg st).1 = .ok c ∧ ‖F - V‖ ≤ δ ∧ |c - (1 - entFid cl cs T V mcu)| ≤ 2 * δ

/-! ## Lemmas -/

theorem gridPoint_zero {N : Nat} (σ : Fin N → ℝ) : gridPoint σ 0 = 0 := by simp [gridPoint]

theorem gridPoint_succ {N : Nat} (σ : Fin N → ℝ) (t : Fin N) : gridPoint σ (t + 1) = gridPoint σ t + σ t := by
  unfold gridPoint
  have h : ∀ k : Fin N, (if (k : Nat) < (t : Nat) + 1 then σ k else 0) = (if (k : Nat) < t then σ k else 0) + if k = t then σ k else 0 := by
    intro k
    by_cases h1 : (k : Nat) < t
    · have h2 : k ≠ t := fun e => by rw [e] at h1; exact lt_irrefl _ h1
      rw [if_pos (by omega), if_pos h1, if_neg h2, add_zero]
    · by_cases h2 : k = t
      · subst h2
        simp
      · have h3 : (k : Nat) ≠ t := fun e => h2 (Fin.ext e)
        rw [if_neg (by omega), if_neg h1, if_neg h2, add_zero]
  simp only [h, Finset.sum_add_distrib]
  simp

theorem gridPoint_last {N : Nat} (σ : Fin N → ℝ) : gridPoint σ N = ∑ t, σ t := by
  unfold gridPoint
  exact Finset.sum_congr rfl fun k _ => if_pos k.2

theorem gridPoint_mono {N : Nat} {σ : Fin N → ℝ} (hσ : ∀ t, 0 ≤ σ t) {s t : Nat} (h : s ≤ t) : gridPoint σ s ≤ gridPoint σ t := by
  unfold gridPoint
  refine Finset.sum_le_sum fun k _ => ?_
  by_cases h1 : (k : Nat) < s
  · rw [if_pos h1, if_pos (by omega)]
  · rw [if_neg h1]
    split
    · exact hσ k
    · exact le_rfl

theorem Evolves.isUnitary {H X : ℝ → Matrix n n ℂ} {S : ℝ} (h : Evolves H X S) (hH : ∀ s ∈ Set.Ico 0 S, (H s).IsHermitian)
    (h0 : X 0 ∈ Matrix.unitaryGroup n ℂ) : ∀ s ∈ Set.Icc 0 S, X s ∈ Matrix.unitaryGroup n ℂ := by
  let _ : NormedAlgebra ℝ (Matrix n n ℂ) := NormedAlgebra.restrictScalars ℝ ℂ _
  have hc := constant_of_has_deriv_right_zero (f := fun s => star (X s) * X s) (a := 0) (b := S)
    ((h.cont.star).mul h.cont) (fun s hs => by
      have hd := h.deriv s hs
      refine ((hd.star).mul hd).congr_deriv ?_
      have e : star (H s) = H s := hH s hs
      rw [star_smul, star_mul, e]
      simp [Matrix.mul_assoc])
  intro s hs
  rw [Matrix.mem_unitaryGroup_iff']
  have := hc s hs
  exact this.trans (Matrix.mem_unitaryGroup_iff'.1 h0)

/-- One time step: the constant Hamiltonian `K` instead of `H`. -/
theorem Evolves.step {H X : ℝ → Matrix n n ℂ} {S : ℝ} (h : Evolves H X S) (hH : ∀ s ∈ Set.Ico 0 S, (H s).IsHermitian)
    (h0 : X 0 ∈ Matrix.unitaryGroup n ℂ) {a b ε : ℝ} (ha : 0 ≤ a) (hab : a ≤ b) (hb : b ≤ S) {K : Matrix n n ℂ} (hK : K.IsHermitian)
    (hε : ∀ s ∈ Set.Ico a b, ‖H s - K‖ ≤ ε) :
    ‖X b - NormedSpace.exp ((((b - a : ℝ)) : ℂ) • (-Complex.I) • K) * X a‖ ≤ ε * (b - a) := by
  let _ : NormedAlgebra ℝ (Matrix n n ℂ) := NormedAlgebra.restrictScalars ℝ ℂ _
  set G : Matrix n n ℂ := Complex.I • K with hG
  have hskew : Gᴴ = -G := by
    rw [hG, Matrix.conjTranspose_smul, hK]
    simp
  have hu : ∀ r : ℝ, NormedSpace.exp (r • G) ∈ Matrix.unitaryGroup n ℂ := fun r => exp_skew_unitary (by
    rw [Matrix.conjTranspose_smul, hskew]
    simp)
  have hsub : Set.Icc a b ⊆ Set.Icc 0 S := Set.Icc_subset_Icc ha hb
  set Z : ℝ → Matrix n n ℂ := fun s => NormedSpace.exp ((s - a) • G) * X s with hZ
  have hYd : ∀ s, HasDerivAt (fun s : ℝ => NormedSpace.exp ((s - a) • G)) (NormedSpace.exp ((s - a) • G) * G) s := by
    intro s
    have h3 := (hasDerivAt_exp_smul_const G (s - a : ℝ)).scomp s ((hasDerivAt_id s).sub_const a)
    simpa [Function.comp_def] using h3
  have hZc : ContinuousOn Z (Set.Icc a b) :=
    ContinuousOn.mul (fun s _ => (hYd s).continuousAt.continuousWithinAt) (h.cont.mono hsub)
  have hZd : ∀ s ∈ Set.Ico a b, HasDerivWithinAt Z (NormedSpace.exp ((s - a) • G) * ((-Complex.I) • (H s - K)) * X s) (Set.Ici s) s := by
    intro s hs
    refine ((hYd s).hasDerivWithinAt.mul (h.deriv s ⟨ha.trans hs.1, hs.2.trans_le hb⟩)).congr_deriv ?_
    rw [hG, smul_sub]
    simp only [neg_smul, Matrix.mul_sub, Matrix.sub_mul, Matrix.mul_neg, Matrix.neg_mul, Matrix.mul_assoc, Matrix.smul_mul, Matrix.mul_smul]
    abel
  have hbd : ∀ s ∈ Set.Ico a b, ‖NormedSpace.exp ((s - a) • G) * ((-Complex.I) • (H s - K)) * X s‖ ≤ ε := by
    intro s hs
    have hX := h.isUnitary hH h0 s (hsub ⟨hs.1, hs.2.le⟩)
    rw [CStarRing.norm_mul_mem_unitary _ (show X s ∈ unitary _ from hX),
      CStarRing.norm_mem_unitary_mul _ (show _ ∈ unitary (Matrix n n ℂ) from hu (s - a)), norm_smul]
    simpa using hε s hs
  have hm := norm_image_sub_le_of_norm_deriv_right_le_segment hZc hZd hbd b ⟨hab, le_rfl⟩
  have hE : NormedSpace.exp ((((b - a : ℝ)) : ℂ) • (-Complex.I) • K) = NormedSpace.exp (-((b - a) • G)) := by
    congr 1
    rw [hG, ← Complex.coe_smul (b - a), neg_smul, smul_neg]
  have hinv : NormedSpace.exp (-((b - a) • G)) * NormedSpace.exp ((b - a) • G) = 1 := by
    have := Matrix.exp_add_of_commute (-((b - a) • G)) ((b - a) • G) ((Commute.refl _).neg_left)
    rw [← this]
    simp
  have hun : NormedSpace.exp (-((b - a) • G)) ∈ Matrix.unitaryGroup n ℂ := by
    have := hu (-(b - a))
    rwa [neg_smul] at this
  have e : X b - NormedSpace.exp (-((b - a) • G)) * X a = NormedSpace.exp (-((b - a) • G)) * (Z b - Z a) := by
    rw [Matrix.mul_sub, hZ]
    simp only [sub_self, zero_smul, NormedSpace.exp_zero, one_mul]
    rw [← Matrix.mul_assoc, hinv, Matrix.one_mul]
  rw [hE, e, CStarRing.norm_mem_unitary_mul _ (show _ ∈ unitary (Matrix n n ℂ) from hun)]
  exact hm

/-- One time step with the Hamiltonian `K` of the middle of the step, `L` its rate of change there. -/
theorem Evolves.midpoint {H X : ℝ → Matrix n n ℂ} {S : ℝ} (h : Evolves H X S) (hH : ∀ s ∈ Set.Ico 0 S, (H s).IsHermitian)
    (h0 : X 0 ∈ Matrix.unitaryGroup n ℂ) {a b : ℝ} (ha : 0 ≤ a) (hab : a ≤ b) (hb : b ≤ S) {K L : Matrix n n ℂ} (hK : K.IsHermitian)
    {R M : ℝ} (hR : ‖K‖ ≤ R) (hRs : ∀ s ∈ Set.Ico a b, ‖H s‖ ≤ R) (hM0 : 0 ≤ M)
    (hM : ∀ s ∈ Set.Ico a b, ‖H s - K - (((s - (a + b) / 2 : ℝ)) : ℂ) • L‖ ≤ M * (s - (a + b) / 2) ^ 2) :
    ‖X b - NormedSpace.exp ((((b - a : ℝ)) : ℂ) • (-Complex.I) • K) * X a‖ ≤ (b - a) ^ 3 / 4 * (M + R * ‖L‖) := by
  let _ : NormedAlgebra ℝ (Matrix n n ℂ) := NormedAlgebra.restrictScalars ℝ ℂ _
  set G : Matrix n n ℂ := Complex.I • K with hG
  have hskew : Gᴴ = -G := by
    rw [hG, Matrix.conjTranspose_smul, hK]
    simp
  have hu : ∀ r : ℝ, NormedSpace.exp (r • G) ∈ Matrix.unitaryGroup n ℂ := fun r => exp_skew_unitary (by
    rw [Matrix.conjTranspose_smul, hskew]
    simp)
  have hsub : Set.Icc a b ⊆ Set.Icc 0 S := Set.Icc_subset_Icc ha hb
  set m := (a + b) / 2 with hm
  set q : ℝ → ℝ := fun s => (s - m) ^ 2 / 2 - (b - a) ^ 2 / 8 with hq
  set Y : ℝ → Matrix n n ℂ := fun s => NormedSpace.exp ((s - a) • G) with hY
  set Z : ℝ → Matrix n n ℂ := fun s => Y s * X s + q s • (Y s * (Complex.I • L) * X s) with hZ
  have hYd : ∀ s, HasDerivAt Y (Y s * G) s := by
    intro s
    have h3 := (hasDerivAt_exp_smul_const G (s - a : ℝ)).scomp s ((hasDerivAt_id s).sub_const a)
    simpa [Function.comp_def, hY] using h3
  have hqd : ∀ s, HasDerivAt q (s - m) s := by
    intro s
    have h3 := ((((hasDerivAt_id s).sub_const m).pow 2).div_const 2).sub_const ((b - a) ^ 2 / 8)
    refine h3.congr_deriv ?_
    simp
  have hYc : ContinuousOn Y (Set.Icc a b) := fun s _ => (hYd s).continuousAt.continuousWithinAt
  have hXc := h.cont.mono hsub
  have hqc : ContinuousOn q (Set.Icc a b) := fun s _ => (hqd s).continuousAt.continuousWithinAt
  have hZc : ContinuousOn Z (Set.Icc a b) := (hYc.mul hXc).add (hqc.smul ((hYc.mul continuousOn_const).mul hXc))
  have hZd : ∀ s ∈ Set.Ico a b, HasDerivWithinAt Z (Y s * ((-Complex.I) • (H s - K - (((s - m : ℝ)) : ℂ) • L)) * X s +
      q s • (Y s * (L * H s - K * L) * X s)) (Set.Ici s) s := by
    intro s hs
    have hXd := h.deriv s ⟨ha.trans hs.1, hs.2.trans_le hb⟩
    have hYw := (hYd s).hasDerivWithinAt (s := Set.Ici s)
    have h1 := hYw.mul hXd
    have h2 := (hYw.mul_const (Complex.I • L)).mul hXd
    have h3 := (hqd s).hasDerivWithinAt (s := Set.Ici s) |>.smul h2
    refine (h1.add h3).congr_deriv ?_
    have e1 : Y s * G * X s + Y s * ((-Complex.I) • (H s * X s)) = Y s * ((-Complex.I) • (H s - K)) * X s := by
      rw [hG, smul_sub]
      simp only [neg_smul, Matrix.mul_sub, Matrix.sub_mul, Matrix.mul_neg, Matrix.neg_mul, Matrix.mul_assoc, Matrix.smul_mul, Matrix.mul_smul]
      abel
    have e2 : Y s * G * (Complex.I • L) * X s + Y s * (Complex.I • L) * ((-Complex.I) • (H s * X s)) = Y s * (L * H s - K * L) * X s := by
      rw [hG]
      simp only [Matrix.mul_sub, Matrix.sub_mul, Matrix.mul_assoc, Matrix.smul_mul, Matrix.mul_smul, smul_smul]
      simp
      abel
    have e3 : (s - m) • (Y s * (Complex.I • L) * X s) = Y s * (Complex.I • ((((s - m : ℝ)) : ℂ) • L)) * X s := by
      rw [Complex.coe_smul]
      simp only [Matrix.mul_assoc, Matrix.smul_mul, Matrix.mul_smul]
      rw [smul_comm]
    have e4 : Y s * ((-Complex.I) • (H s - K - (((s - m : ℝ)) : ℂ) • L)) * X s =
        Y s * ((-Complex.I) • (H s - K)) * X s + Y s * (Complex.I • ((((s - m : ℝ)) : ℂ) • L)) * X s := by
      rw [smul_sub (-Complex.I) (H s - K), neg_smul Complex.I ((((s - m : ℝ)) : ℂ) • L), sub_neg_eq_add, Matrix.mul_add, Matrix.add_mul]
    have e5 : ((fun y => Y y * (Complex.I • L)) * X) s = Y s * (Complex.I • L) * X s := rfl
    rw [e1, e2, e5, e3, e4]
    abel
  have hbd : ∀ s ∈ Set.Ico a b, ‖Y s * ((-Complex.I) • (H s - K - (((s - m : ℝ)) : ℂ) • L)) * X s +
      q s • (Y s * (L * H s - K * L) * X s)‖ ≤ (b - a) ^ 2 / 4 * (M + R * ‖L‖) := by
    intro s hs
    have hX := h.isUnitary hH h0 s (hsub ⟨hs.1, hs.2.le⟩)
    have n1 : ∀ A : Matrix n n ℂ, ‖Y s * A * X s‖ = ‖A‖ := fun A => by
      rw [CStarRing.norm_mul_mem_unitary _ (show X s ∈ unitary _ from hX),
        CStarRing.norm_mem_unitary_mul _ (show _ ∈ unitary (Matrix n n ℂ) from hu (s - a))]
    refine (norm_add_le _ _).trans ?_
    rw [norm_smul, n1, n1, norm_smul, norm_neg, Complex.norm_I, one_mul, Real.norm_eq_abs]
    have h2 : ‖L * H s - K * L‖ ≤ 2 * (R * ‖L‖) := by
      refine (norm_sub_le _ _).trans ?_
      have a1 := (norm_mul_le L (H s)).trans (mul_le_mul_of_nonneg_left (hRs s hs) (norm_nonneg L))
      have a2 := (norm_mul_le K L).trans (mul_le_mul_of_nonneg_right hR (norm_nonneg L))
      linarith
    have hRL : 0 ≤ R * ‖L‖ := mul_nonneg ((norm_nonneg _).trans hR) (norm_nonneg _)
    have hsm : (s - m) ^ 2 ≤ (b - a) ^ 2 / 4 := by
      have l1 : -((b - a) / 2) ≤ s - m := by rw [hm]; linarith [hs.1]
      have l2 : s - m ≤ (b - a) / 2 := by rw [hm]; linarith [hs.2]
      nlinarith
    have h3 : |q s| ≤ (b - a) ^ 2 / 8 := by
      rw [abs_le, hq]
      constructor <;> nlinarith [sq_nonneg (s - m)]
    have h4 := (hM s hs).trans (mul_le_mul_of_nonneg_left hsm hM0)
    have h5 := mul_le_mul h3 h2 (norm_nonneg _) (by positivity)
    linarith
  have hmv := norm_image_sub_le_of_norm_deriv_right_le_segment hZc hZd hbd b ⟨hab, le_rfl⟩
  have hqa : q a = 0 := by simp only [hq, hm]; ring
  have hqb : q b = 0 := by simp only [hq, hm]; ring
  have hE : NormedSpace.exp ((((b - a : ℝ)) : ℂ) • (-Complex.I) • K) = NormedSpace.exp (-((b - a) • G)) := by
    congr 1
    rw [hG, ← Complex.coe_smul (b - a), neg_smul, smul_neg]
  have hinv : NormedSpace.exp (-((b - a) • G)) * NormedSpace.exp ((b - a) • G) = 1 := by
    have := Matrix.exp_add_of_commute (-((b - a) • G)) ((b - a) • G) ((Commute.refl _).neg_left)
    rw [← this]
    simp
  have hun : NormedSpace.exp (-((b - a) • G)) ∈ Matrix.unitaryGroup n ℂ := by
    have := hu (-(b - a))
    rwa [neg_smul] at this
  have e : X b - NormedSpace.exp (-((b - a) • G)) * X a = NormedSpace.exp (-((b - a) • G)) * (Z b - Z a) := by
    rw [Matrix.mul_sub]
    simp only [hZ, hqa, hqb, hY, sub_self, zero_smul, NormedSpace.exp_zero, one_mul, add_zero]
    rw [← Matrix.mul_assoc, hinv, Matrix.one_mul]
  rw [hE, e, CStarRing.norm_mem_unitary_mul _ (show _ ∈ unitary (Matrix n n ℂ) from hun)]
  refine hmv.trans (le_of_eq ?_)
  ring

/-- All time steps, with errors `δ` of the single steps. -/
theorem steps_error {X : ℝ → Matrix n n ℂ} {N : Nat} {σ : Fin N → ℝ} (K : Fin N → Matrix n n ℂ) (hK : ∀ t, (K t).IsHermitian)
    (δ : Fin N → ℝ)
    (hδ : ∀ t : Fin N, ‖X (gridPoint σ (t + 1)) - NormedSpace.exp (((σ t : ℝ) : ℂ) • (-Complex.I) • K t) * X (gridPoint σ t)‖ ≤ δ t) :
    ‖(List.ofFn fun t => NormedSpace.exp (((σ t : ℝ) : ℂ) • (-Complex.I) • K t)).foldl (fun F P => P * F) (X 0) - X (∑ t, σ t)‖ ≤
      ∑ t, δ t := by
  have key : ∀ m, (hm : m ≤ N) → ‖X (gridPoint σ m) - ((List.ofFn fun t => NormedSpace.exp (((σ t : ℝ) : ℂ) • (-Complex.I) • K t)).take
      m).foldl (fun F P => P * F) (X 0)‖ ≤ ∑ t : Fin N, if (t : Nat) < m then δ t else 0 := by
    intro m
    induction m with
    | zero => intro _; simp [gridPoint_zero]
    | succ m ih =>
      intro hm
      have hlen : m < (List.ofFn fun t => NormedSpace.exp (((σ t : ℝ) : ℂ) • (-Complex.I) • K t)).length := by simpa using hm
      rw [List.take_succ_eq_append_getElem hlen, List.foldl_append]
      simp only [List.foldl_cons, List.foldl_nil, List.getElem_ofFn]
      have hs := hδ ⟨m, hm⟩
      have hun : NormedSpace.exp (((σ ⟨m, hm⟩ : ℝ) : ℂ) • (-Complex.I) • K ⟨m, hm⟩) ∈ Matrix.unitaryGroup n ℂ := exp_skew_unitary (by
        rw [Matrix.conjTranspose_smul, skew_of_hermitian (hK _)]
        simp)
      have hsum : (∑ t : Fin N, if (t : Nat) < m + 1 then δ t else 0) =
          (∑ t : Fin N, if (t : Nat) < m then δ t else 0) + δ ⟨m, hm⟩ := gridPoint_succ δ ⟨m, hm⟩
      rw [hsum]
      set W := ((List.ofFn fun t => NormedSpace.exp (((σ t : ℝ) : ℂ) • (-Complex.I) • K t)).take m).foldl (fun F P => P * F) (X 0)
      set P := NormedSpace.exp (((σ ⟨m, hm⟩ : ℝ) : ℂ) • (-Complex.I) • K ⟨m, hm⟩)
      have e : X (gridPoint σ (m + 1)) - P * W = (X (gridPoint σ (m + 1)) - P * X (gridPoint σ m)) + P * (X (gridPoint σ m) - W) := by
        noncomm_ring
      rw [e]
      refine (norm_add_le _ _).trans ?_
      rw [CStarRing.norm_mem_unitary_mul _ (show _ ∈ unitary (Matrix n n ℂ) from hun)]
      have := ih (Nat.le_of_succ_le hm)
      simp only at hs
      linarith
  have := key N le_rfl
  rw [gridPoint_last, List.take_of_length_le (by simp), norm_sub_rev] at this
  refine this.trans (le_of_eq (Finset.sum_congr rfl fun t _ => if_pos t.2))

theorem continuousHam_hermitian {a : Nat} {D : ℝ → Matrix n n ℂ} {C : Fin a → Matrix n n ℂ} (v : ℝ → Fin a → ℝ) (s : ℝ)
    (hD : (D s).IsHermitian) (hC : ∀ c, (C c).IsHermitian) : (continuousHam D C v s).IsHermitian := by
  unfold continuousHam Matrix.IsHermitian
  rw [Matrix.conjTranspose_add, hD, Matrix.conjTranspose_sum]
  congr 1
  exact Finset.sum_congr rfl fun c _ => by rw [Matrix.conjTranspose_smul, hC c]; simp

/-- A time lies within one of the steps. -/
theorem step_of_time {N : Nat} {σ : Fin N → ℝ} {s : ℝ} (hs : s ∈ Set.Ico 0 (∑ t, σ t)) :
    ∃ t : Fin N, s ∈ Set.Ico (gridPoint σ t) (gridPoint σ (t + 1)) := by
  have key : ∀ m, m ≤ N → s < gridPoint σ m → ∃ t : Fin N, s ∈ Set.Ico (gridPoint σ t) (gridPoint σ (t + 1)) := by
    intro m
    induction m with
    | zero =>
      intro _ h
      rw [gridPoint_zero] at h
      exact absurd hs.1 (not_le.2 h)
    | succ m ih =>
      intro hm h
      by_cases h1 : s < gridPoint σ m
      · exact ih (Nat.le_of_succ_le hm) h1
      · exact ⟨⟨m, hm⟩, not_lt.1 h1, h⟩
  exact key N le_rfl (by rw [gridPoint_last]; exact hs.2)

/-- The Hamiltonian of one time step of the solver. -/
theorem stepHam_eq (p : SPar n n) (τ : List ℝ) (U : Fin (p.xTimes τ).length → Fin p.ctrl.length → ℝ) (t : Fin (p.xTimes τ).length) :
    hamiltonian (p.drift.getD t 0) p.ctrl ((rowsOf U).getD t []) = p.drift.getD t 0 + ∑ c, ((U t c : ℝ) : ℂ) • p.ctrl.get c := by
  rw [rowsOf_get U t t.2, hamiltonian_eq_sum _ _ _ (by simp)]
  congr 1
  refine Finset.sum_congr rfl fun c _ => ?_
  simp

theorem drift_hermitian (p : SPar n n) (hd : ∀ H ∈ p.drift, H.IsHermitian) (t : Nat) : (p.drift.getD t 0).IsHermitian := by
  by_cases h : t < p.drift.length
  · rw [List.getD_eq_getElem _ _ h]
    exact hd _ (List.getElem_mem h)
  · rw [List.getD_eq_default _ _ (not_lt.1 h)]
    exact Matrix.isHermitian_zero

theorem simulates_of_steps (p : SPar n n) (τ : List ℝ) (cl : Closest) (cs : Option (List n)) (T : Matrix (CompIdx cs) (CompIdx cs) ℂ)
    (mcu : Bool) (hs : NoisySystem p τ [] cs T mcu false) (U : Fin (p.xTimes τ).length → Fin p.ctrl.length → ℝ)
    {X : ℝ → Matrix n n ℂ} (hX0 : X 0 = p.init) (hX1 : X (∑ t, (p.xTimes τ).get t) ∈ Matrix.unitaryGroup n ℂ)
    (δ : Fin (p.xTimes τ).length → ℝ)
    (hδ : ∀ t : Fin (p.xTimes τ).length, ‖X (gridPoint (p.xTimes τ).get (t + 1)) - NormedSpace.exp ((((p.xTimes τ).get t : ℝ) : ℂ) •
      (-Complex.I) • (p.drift.getD t 0 + ∑ c, ((U t c : ℝ) : ℂ) • p.ctrl.get c)) * X (gridPoint (p.xTimes τ).get t)‖ ≤ δ t) :
    Simulates p τ cl cs T mcu (rowsOf U) (X (∑ t, (p.xTimes τ).get t)) (∑ t, δ t) := by
  intro st hr
  obtain ⟨f, s1, c1, c2, -⟩ := hr.fwd hs.valid hs.stable
  have hT : T ∈ Matrix.unitaryGroup (CompIdx cs) ℂ := hs.target.resolve_left (by simp)
  have hfin : p.final τ (rowsOf U) = (List.ofFn fun t => NormedSpace.exp ((((p.xTimes τ).get t : ℝ) : ℂ) •
      (-Complex.I) • (p.drift.getD t 0 + ∑ c, ((U t c : ℝ) : ℂ) • p.ctrl.get c))).foldl (fun F P => P * F) (X 0) := by
    rw [clean_final p τ hs.method hs.expm [], noisyFinal, hX0]
    congr 2
    funext t
    unfold noisyStep
    rw [stepHam_eq]
    simp
  have hd : ‖p.final τ (rowsOf U) - X (∑ t, (p.xTimes τ).get t)‖ ≤ ∑ t, δ t := by
    rw [hfin]
    refine steps_error (X := X) _ (fun t => ?_) δ hδ
    exact continuousHam_hermitian (D := fun _ => p.drift.getD t 0) (C := p.ctrl.get) (fun _ => U t) 0 (drift_hermitian p hs.drift t)
      fun c => hs.ctrl _ (List.get_mem _ _)
  refine ⟨f, _, _, by rw [c1], final_last c2, opCost_value p τ hs.valid hs.stable cl cs T mcu _ st hr, hd, ?_⟩
  rw [sub_sub_sub_cancel_left, abs_sub_comm]
  refine (entFid_lip cl cs hs.distinct mcu hs.plain hT ?_ (norm_unitary_le hX1)).trans (mul_le_mul_of_nonneg_left hd (by norm_num))
  rw [clean_final p τ hs.method hs.expm []]
  exact norm_unitary_le (noisyFinal_unitary p [] τ hs.valid hs.drift hs.ctrl hs.noise hs.init _ _)

/-! ## Properties -/

/-- The continuous system sampled by the solver `p`: time steps which are not negative, a drift which changes only between steps, and the
solution `X` of the Schroedinger equation with the controls `v`. -/
structure ContinuousSystem (p : SPar n n) (τ : List ℝ) (D : ℝ → Matrix n n ℂ) (v : ℝ → Fin p.ctrl.length → ℝ) (X : ℝ → Matrix n n ℂ) : Prop where
  steps : ∀ t, 0 ≤ (p.xTimes τ).get t
  drift : ∀ t : Fin (p.xTimes τ).length, ∀ s ∈ Set.Ico (gridPoint (p.xTimes τ).get t) (gridPoint (p.xTimes τ).get (t + 1)),
    D s = p.drift.getD t 0
  start : X 0 = p.init
  evolves : Evolves (continuousHam D p.ctrl.get v) X (∑ t, (p.xTimes τ).get t)

theorem ContinuousSystem.hermitian {p : SPar n n} {τ : List ℝ} {D : ℝ → Matrix n n ℂ} {v : ℝ → Fin p.ctrl.length → ℝ} {X : ℝ → Matrix n n ℂ}
    (h : ContinuousSystem p τ D v X) (hd : ∀ H ∈ p.drift, H.IsHermitian) (hc : ∀ H ∈ p.ctrl, H.IsHermitian) :
    ∀ s ∈ Set.Ico 0 (∑ t, (p.xTimes τ).get t), (continuousHam D p.ctrl.get v s).IsHermitian := by
  intro s hs
  obtain ⟨t, ht⟩ := step_of_time hs
  refine continuousHam_hermitian v s ?_ fun c => hc _ (List.get_mem _ _)
  rw [h.drift t s ht]
  exact drift_hermitian p hd t

/-- **C136** The error of the simulation is at most the sum over the time steps of the length of the step times the deviation of the
controls from the amplitudes during the step, weighted with the norms of the control operators. -/
theorem c136_deviation (p : SPar n n) (τ : List ℝ) (cl : Closest) (cs : Option (List n)) (T : Matrix (CompIdx cs) (CompIdx cs) ℂ)
    (mcu : Bool) (hs : NoisySystem p τ [] cs T mcu false) (D : ℝ → Matrix n n ℂ) (v : ℝ → Fin p.ctrl.length → ℝ) (X : ℝ → Matrix n n ℂ)
    (h : ContinuousSystem p τ D v X) (U ε : Fin (p.xTimes τ).length → Fin p.ctrl.length → ℝ)
    (hε : ∀ (t : Fin (p.xTimes τ).length) c, ∀ s ∈ Set.Ico (gridPoint (p.xTimes τ).get t) (gridPoint (p.xTimes τ).get (t + 1)),
      |v s c - U t c| ≤ ε t c) :
    Simulates p τ cl cs T mcu (rowsOf U) (X (∑ t, (p.xTimes τ).get t))
      (∑ t, (p.xTimes τ).get t * ∑ c, ε t c * ‖p.ctrl.get c‖) := by
  have hH := h.hermitian hs.drift hs.ctrl
  have h0 : X 0 ∈ Matrix.unitaryGroup n ℂ := by rw [h.start]; exact hs.init
  have hS : (0 : ℝ) ≤ ∑ t, (p.xTimes τ).get t := Finset.sum_nonneg fun t _ => h.steps t
  refine simulates_of_steps p τ cl cs T mcu hs U h.start (h.evolves.isUnitary hH h0 _ ⟨hS, le_rfl⟩) _ fun t => ?_
  have hg := gridPoint_succ (p.xTimes τ).get t
  have hst := h.evolves.step hH h0 (a := gridPoint (p.xTimes τ).get t) (b := gridPoint (p.xTimes τ).get (t + 1))
    (K := p.drift.getD t 0 + ∑ c, ((U t c : ℝ) : ℂ) • p.ctrl.get c) (ε := ∑ c, ε t c * ‖p.ctrl.get c‖)
    (by rw [← gridPoint_zero (p.xTimes τ).get]; exact gridPoint_mono h.steps (Nat.zero_le _)) (gridPoint_mono h.steps (Nat.le_succ _))
    (by rw [← gridPoint_last (p.xTimes τ).get]; exact gridPoint_mono h.steps t.2)
    (continuousHam_hermitian (D := fun _ => p.drift.getD t 0) (C := p.ctrl.get) (fun _ => U t) 0 (drift_hermitian p hs.drift t)
      fun c => hs.ctrl _ (List.get_mem _ _)) (fun s hs' => by
        unfold continuousHam
        rw [h.drift t s hs', add_sub_add_left_eq_sub, ← Finset.sum_sub_distrib]
        refine (norm_sum_le _ _).trans (Finset.sum_le_sum fun c _ => ?_)
        rw [← sub_smul, norm_smul, ← Complex.ofReal_sub, Complex.norm_real, Real.norm_eq_abs]
        exact mul_le_mul_of_nonneg_right (hε t c s hs') (norm_nonneg _))
  have hd : gridPoint (p.xTimes τ).get (t + 1) - gridPoint (p.xTimes τ).get t = (p.xTimes τ).get t := by linarith
  rw [hd] at hst
  linarith

theorem Simulates.mono {p : SPar n n} {τ : List ℝ} {cl : Closest} {cs : Option (List n)} {T : Matrix (CompIdx cs) (CompIdx cs) ℂ}
    {mcu : Bool} {u : Pulse} {V : Matrix n n ℂ} {δ δ' : ℝ} (h : Simulates p τ cl cs T mcu u V δ) (hd : δ ≤ δ') :
    Simulates p τ cl cs T mcu u V δ' := by
  intro st hr
  obtain ⟨f, F, c, h1, h2, h3, h4, h5⟩ := h st hr
  exact ⟨f, F, c, h1, h2, h3, h4.trans hd, h5.trans (by linarith)⟩

/-- **C136** For controls which are constant during each time step the simulation is exact. -/
theorem c136_stepped (p : SPar n n) (τ : List ℝ) (cl : Closest) (cs : Option (List n)) (T : Matrix (CompIdx cs) (CompIdx cs) ℂ)
    (mcu : Bool) (hs : NoisySystem p τ [] cs T mcu false) (D : ℝ → Matrix n n ℂ) (v : ℝ → Fin p.ctrl.length → ℝ) (X : ℝ → Matrix n n ℂ)
    (h : ContinuousSystem p τ D v X) (U : Fin (p.xTimes τ).length → Fin p.ctrl.length → ℝ)
    (hv : ∀ (t : Fin (p.xTimes τ).length), ∀ s ∈ Set.Ico (gridPoint (p.xTimes τ).get t) (gridPoint (p.xTimes τ).get (t + 1)), v s = U t) :
    ∀ st, Ready p τ (rowsOf U) st → ∃ f, (readFwd p.cfg st).1 = .ok f ∧ f.getLast? = some (X (∑ t, (p.xTimes τ).get t)) ∧
      (costOn (opCosts cl cs T mcu) p.cfg st).1 = .ok (1 - entFid cl cs T (X (∑ t, (p.xTimes τ).get t)) mcu) := by
  intro st hr
  obtain ⟨f, F, c, h1, h2, h3, h4, h5⟩ := c136_deviation p τ cl cs T mcu hs D v X h U 0 (fun t c s hs' => by simp [hv t s hs']) st hr
  simp only [Pi.zero_apply, zero_mul, Finset.sum_const_zero, mul_zero] at h4 h5
  have hF : F = X (∑ t, (p.xTimes τ).get t) := sub_eq_zero.1 (norm_le_zero_iff.1 h4)
  have hc : c = 1 - entFid cl cs T (X (∑ t, (p.xTimes τ).get t)) mcu := sub_eq_zero.1 (abs_nonpos_iff.1 h5)
  exact ⟨f, h1, hF ▸ h2, hc ▸ h3⟩

/-- **C136** Controls with bounded rates of change `Λ`, sampled anywhere within the time steps: the error is at most proportional to the
longest time step. -/
theorem c136_lipschitz (p : SPar n n) (τ : List ℝ) (cl : Closest) (cs : Option (List n)) (T : Matrix (CompIdx cs) (CompIdx cs) ℂ)
    (mcu : Bool) (hs : NoisySystem p τ [] cs T mcu false) (D : ℝ → Matrix n n ℂ) (v : ℝ → Fin p.ctrl.length → ℝ) (X : ℝ → Matrix n n ℂ)
    (h : ContinuousSystem p τ D v X) (Λ : Fin p.ctrl.length → ℝ)
    (hΛ : ∀ c, ∀ s ∈ Set.Icc 0 (∑ t, (p.xTimes τ).get t), ∀ s' ∈ Set.Icc 0 (∑ t, (p.xTimes τ).get t), |v s c - v s' c| ≤ Λ c * |s - s'|)
    (ξ : Fin (p.xTimes τ).length → ℝ)
    (hξ : ∀ t : Fin (p.xTimes τ).length, ξ t ∈ Set.Icc (gridPoint (p.xTimes τ).get t) (gridPoint (p.xTimes τ).get (t + 1)))
    (w : ℝ) (hw : ∀ t, (p.xTimes τ).get t ≤ w) :
    Simulates p τ cl cs T mcu (rowsOf fun t => v (ξ t)) (X (∑ t, (p.xTimes τ).get t))
      (w * (∑ t, (p.xTimes τ).get t) * ∑ c, Λ c * ‖p.ctrl.get c‖) := by
  by_cases hS : 0 < ∑ t, (p.xTimes τ).get t
  · have hΛ0 : ∀ c, 0 ≤ Λ c := by
      intro c
      have h1 := hΛ c (∑ t, (p.xTimes τ).get t) ⟨hS.le, le_rfl⟩ 0 ⟨le_rfl, hS.le⟩
      rw [sub_zero, abs_of_pos hS] at h1
      exact nonneg_of_mul_nonneg_left ((abs_nonneg _).trans h1) hS
    have hb : ∀ t : Nat, t ≤ (p.xTimes τ).length → gridPoint (p.xTimes τ).get t ∈ Set.Icc 0 (∑ t, (p.xTimes τ).get t) := fun t ht =>
      ⟨by rw [← gridPoint_zero (p.xTimes τ).get]; exact gridPoint_mono h.steps (Nat.zero_le _),
        by rw [← gridPoint_last (p.xTimes τ).get]; exact gridPoint_mono h.steps ht⟩
    refine (c136_deviation p τ cl cs T mcu hs D v X h _ (fun t c => Λ c * w) fun t c s hs' => ?_).mono ?_
    · refine (hΛ c s ⟨(hb t t.2.le).1.trans hs'.1, hs'.2.le.trans (hb (t + 1) t.2).2⟩ (ξ t)
        ⟨(hb t t.2.le).1.trans (hξ t).1, (hξ t).2.trans (hb (t + 1) t.2).2⟩).trans (mul_le_mul_of_nonneg_left ?_ (hΛ0 c))
      have hg := gridPoint_succ (p.xTimes τ).get t
      rw [abs_le]
      constructor <;> linarith [hs'.1, hs'.2, (hξ t).1, (hξ t).2, hw t]
    · rw [← Finset.sum_mul]
      refine le_of_eq ?_
      have : ∀ c, Λ c * w * ‖p.ctrl.get c‖ = w * (Λ c * ‖p.ctrl.get c‖) := fun c => by ring
      simp only [this, ← Finset.mul_sum]
      ring
  · have hS0 : ∑ t, (p.xTimes τ).get t = 0 := le_antisymm (not_lt.1 hS) (Finset.sum_nonneg fun t _ => h.steps t)
    have hz : ∀ t, (p.xTimes τ).get t = 0 := fun t =>
      (Finset.sum_eq_zero_iff_of_nonneg fun t _ => h.steps t).1 hS0 t (Finset.mem_univ t)
    have hg : ∀ t, gridPoint (p.xTimes τ).get t = 0 := fun t => by
      unfold gridPoint
      exact Finset.sum_eq_zero fun k _ => by rw [hz k]; simp
    refine (c136_deviation p τ cl cs T mcu hs D v X h _ 0 fun t c s hs' => ?_).mono ?_
    · rw [hg, hg] at hs'
      exact absurd hs'.2 (not_lt.2 hs'.1)
    · rw [hS0]
      simp

/-- **C136** Smooth controls sampled in the middle of the time steps: the error is at most proportional to the square of the longest time
step.  `B`, `Λ` and `M` bound the controls, their derivatives `v'` and the rates of change of the derivatives. -/
theorem c136_midpoint (p : SPar n n) (τ : List ℝ) (cl : Closest) (cs : Option (List n)) (T : Matrix (CompIdx cs) (CompIdx cs) ℂ)
    (mcu : Bool) (hs : NoisySystem p τ [] cs T mcu false) (D : ℝ → Matrix n n ℂ) (v v' : ℝ → Fin p.ctrl.length → ℝ) (X : ℝ → Matrix n n ℂ)
    (h : ContinuousSystem p τ D v X) (B Λ M : Fin p.ctrl.length → ℝ) (d : ℝ) (hd : ∀ H ∈ p.drift, ‖H‖ ≤ d)
    (hv : ∀ c, ∀ s ∈ Set.Icc 0 (∑ t, (p.xTimes τ).get t),
      HasDerivWithinAt (fun s => v s c) (v' s c) (Set.Icc 0 (∑ t, (p.xTimes τ).get t)) s)
    (hB : ∀ c, ∀ s ∈ Set.Icc 0 (∑ t, (p.xTimes τ).get t), |v s c| ≤ B c)
    (hΛ : ∀ c, ∀ s ∈ Set.Icc 0 (∑ t, (p.xTimes τ).get t), |v' s c| ≤ Λ c) (hM0 : ∀ c, 0 ≤ M c)
    (hM : ∀ c, ∀ s ∈ Set.Icc 0 (∑ t, (p.xTimes τ).get t), ∀ s' ∈ Set.Icc 0 (∑ t, (p.xTimes τ).get t),
      |v' s c - v' s' c| ≤ M c * |s - s'|)
    (w : ℝ) (hw : ∀ t, (p.xTimes τ).get t ≤ w) :
    Simulates p τ cl cs T mcu (rowsOf fun t : Fin (p.xTimes τ).length =>
        v ((gridPoint (p.xTimes τ).get t + gridPoint (p.xTimes τ).get (t + 1)) / 2)) (X (∑ t, (p.xTimes τ).get t))
      (w ^ 2 / 4 * (∑ t, (p.xTimes τ).get t) * ((∑ c, M c * ‖p.ctrl.get c‖) +
        (d + ∑ c, B c * ‖p.ctrl.get c‖) * ∑ c, Λ c * ‖p.ctrl.get c‖)) := by
  have hH := h.hermitian hs.drift hs.ctrl
  have h0 : X 0 ∈ Matrix.unitaryGroup n ℂ := by rw [h.start]; exact hs.init
  have hS : (0 : ℝ) ≤ ∑ t, (p.xTimes τ).get t := Finset.sum_nonneg fun t _ => h.steps t
  have hb : ∀ t : Nat, t ≤ (p.xTimes τ).length → gridPoint (p.xTimes τ).get t ∈ Set.Icc 0 (∑ t, (p.xTimes τ).get t) := fun t ht =>
    ⟨by rw [← gridPoint_zero (p.xTimes τ).get]; exact gridPoint_mono h.steps (Nat.zero_le _),
      by rw [← gridPoint_last (p.xTimes τ).get]; exact gridPoint_mono h.steps ht⟩
  set Ms := ∑ c, M c * ‖p.ctrl.get c‖ with hMs
  set R := d + ∑ c, B c * ‖p.ctrl.get c‖ with hR
  set Ls := ∑ c, Λ c * ‖p.ctrl.get c‖ with hLs
  have hMs0 : 0 ≤ Ms := Finset.sum_nonneg fun c _ => mul_nonneg (hM0 c) (norm_nonneg _)
  have hLs0 : 0 ≤ Ls := Finset.sum_nonneg fun c _ => mul_nonneg ((abs_nonneg _).trans (hΛ c 0 ⟨le_rfl, hS⟩)) (norm_nonneg _)
  have hdt : ∀ t : Fin (p.xTimes τ).length, ‖p.drift.getD t 0‖ ≤ d := by
    intro t
    have ht : (t : Nat) < p.drift.length := by
      have := hs.valid.2.1
      omega
    rw [List.getD_eq_getElem _ _ ht]
    exact hd _ (List.getElem_mem ht)
  have hnorm : ∀ (t : Fin (p.xTimes τ).length), ∀ s ∈ Set.Icc 0 (∑ t, (p.xTimes τ).get t),
      ‖p.drift.getD t 0 + ∑ c, ((v s c : ℝ) : ℂ) • p.ctrl.get c‖ ≤ R := by
    intro t s hs'
    refine (norm_add_le _ _).trans (add_le_add (hdt t) ((norm_sum_le _ _).trans (Finset.sum_le_sum fun c _ => ?_)))
    rw [norm_smul, Complex.norm_real, Real.norm_eq_abs]
    exact mul_le_mul_of_nonneg_right (hB c s hs') (norm_nonneg _)
  refine (simulates_of_steps p τ cl cs T mcu hs _ h.start (h.evolves.isUnitary hH h0 _ ⟨hS, le_rfl⟩)
    (fun t => (p.xTimes τ).get t ^ 3 / 4 * (Ms + R * Ls)) fun t => ?_).mono ?_
  · have hg := gridPoint_succ (p.xTimes τ).get t
    set a := gridPoint (p.xTimes τ).get t with ha
    set b := gridPoint (p.xTimes τ).get (t + 1) with hb'
    have hab : a ≤ b := gridPoint_mono h.steps (Nat.le_succ _)
    have ha0 := hb t t.2.le
    have hb0 := hb (t + 1) t.2
    have hIco : ∀ s ∈ Set.Ico a b, s ∈ Set.Icc 0 (∑ t, (p.xTimes τ).get t) := fun s hs' =>
      ⟨ha0.1.trans hs'.1, hs'.2.le.trans hb0.2⟩
    have hm : (a + b) / 2 ∈ Set.Icc 0 (∑ t, (p.xTimes τ).get t) := ⟨by linarith [ha0.1, hb0.1], by linarith [ha0.2, hb0.2]⟩
    have hst := h.evolves.midpoint hH h0 (a := a) (b := b) (K := p.drift.getD t 0 + ∑ c, ((v ((a + b) / 2) c : ℝ) : ℂ) • p.ctrl.get c)
      (L := ∑ c, ((v' ((a + b) / 2) c : ℝ) : ℂ) • p.ctrl.get c) (R := R) (M := Ms) ha0.1 hab hb0.2
      (continuousHam_hermitian (D := fun _ => p.drift.getD t 0) (C := p.ctrl.get) v _ (drift_hermitian p hs.drift t)
        fun c => hs.ctrl _ (List.get_mem _ _)) (hnorm t _ hm)
      (fun s hs' => by
        unfold continuousHam
        rw [h.drift t s hs']
        exact hnorm t s (hIco s hs')) hMs0 (fun s hs' => by
        unfold continuousHam
        rw [h.drift t s hs', add_sub_add_left_eq_sub, ← Finset.sum_sub_distrib, Finset.smul_sum, ← Finset.sum_sub_distrib, hMs,
          Finset.sum_mul]
        refine (norm_sum_le _ _).trans (Finset.sum_le_sum fun c _ => ?_)
        rw [← sub_smul, smul_smul, ← sub_smul, norm_smul, ← Complex.ofReal_sub, ← Complex.ofReal_mul, ← Complex.ofReal_sub,
          Complex.norm_real, mul_right_comm]
        refine mul_le_mul_of_nonneg_right ?_ (norm_nonneg _)
        have hseg : Set.uIcc ((a + b) / 2) s ⊆ Set.Icc 0 (∑ t, (p.xTimes τ).get t) := by
          intro r hr
          rcases Set.mem_uIcc.1 hr with hr | hr
          · exact ⟨hm.1.trans hr.1, hr.2.trans (hIco s hs').2⟩
          · exact ⟨(hIco s hs').1.trans hr.1, hr.2.trans hm.2⟩
        have hmv := Convex.norm_image_sub_le_of_norm_hasDerivWithin_le (f := fun r => v r c - r * v' ((a + b) / 2) c)
          (f' := fun r => v' r c - v' ((a + b) / 2) c) (s := Set.uIcc ((a + b) / 2) s) (C := M c * |s - (a + b) / 2|)
          (fun r hr => by
            have h1 := (hv c r (hseg hr)).mono hseg
            have h2 := ((hasDerivAt_id r).mul_const (v' ((a + b) / 2) c)).hasDerivWithinAt (s := Set.uIcc ((a + b) / 2) s)
            rw [one_mul] at h2
            exact h1.sub h2)
          (fun r hr => by
            rw [Real.norm_eq_abs]
            refine (hM c r (hseg hr) _ hm).trans (mul_le_mul_of_nonneg_left (Set.abs_sub_left_of_mem_uIcc hr) (hM0 c)))
          (convex_uIcc _ _) (Set.left_mem_uIcc) (Set.right_mem_uIcc)
        simp only [Real.norm_eq_abs] at hmv ⊢
        have e : v s c - s * v' ((a + b) / 2) c - (v ((a + b) / 2) c - (a + b) / 2 * v' ((a + b) / 2) c) =
            v s c - v ((a + b) / 2) c - (s - (a + b) / 2) * v' ((a + b) / 2) c := by ring
        rw [e, mul_assoc, ← sq, sq_abs] at hmv
        exact hmv)
    have hdd : b - a = (p.xTimes τ).get t := by linarith
    rw [hdd] at hst
    refine hst.trans (mul_le_mul_of_nonneg_left ?_ (div_nonneg (pow_nonneg (h.steps t) 3) (by norm_num)))
    have hR0 : 0 ≤ R := (norm_nonneg _).trans (hnorm t _ hm)
    refine add_le_add le_rfl (mul_le_mul_of_nonneg_left ((norm_sum_le _ _).trans (Finset.sum_le_sum fun c _ => ?_)) hR0)
    rw [norm_smul, Complex.norm_real, Real.norm_eq_abs]
    exact mul_le_mul_of_nonneg_right (hΛ c _ hm) (norm_nonneg _)
  · rw [← Finset.sum_mul]
    have hne : Nonempty (Fin (p.xTimes τ).length) := ⟨⟨0, List.length_pos_iff.2 hs.times⟩⟩
    have hR0 : 0 ≤ R := (norm_nonneg _).trans (hnorm hne.some 0 ⟨le_rfl, hS⟩)
    refine mul_le_mul_of_nonneg_right ?_ (add_nonneg hMs0 (mul_nonneg hR0 hLs0))
    rw [Finset.mul_sum]
    refine Finset.sum_le_sum fun t _ => ?_
    have h1 := h.steps t
    have h2 : (p.xTimes τ).get t ^ 2 ≤ w ^ 2 := pow_le_pow_left₀ h1 (hw t) 2
    have h3 := mul_le_mul_of_nonneg_right h2 h1
    nlinarith

/-! ## Examples -/

namespace Ex136

/-- A qubit without drift. -/
noncomputable def par (L : Lapack (Fin 2)) : SPar (Fin 2) (Fin 2) :=
  ⟨L, .frechet, true, true, .none, 1, [0, 0, 0], [!![0, 1; 1, 0], !![0, -Complex.I; Complex.I, 0]], idTf, id, idAmp⟩

theorem system {L : Lapack (Fin 2)} (hE : L.ExpmOk) : NoisySystem (par L) [1, 2, 3] [] none 1 false false where
  valid := ⟨by simp [par], rfl, by simp [par]⟩
  stable := Or.inl ⟨rfl, rfl⟩
  method := rfl
  expm := hE
  times := by simp [par]
  drift := by
    intro H hH
    simp [par] at hH
    subst hH
    exact Matrix.isHermitian_zero
  ctrl := (qubit_system hE).ctrl
  noise := by simp
  init := Submonoid.one_mem _
  states := ⟨(0 : Fin 2)⟩
  distinct := by simp
  plain := Or.inl rfl
  target := Or.inr (Submonoid.one_mem _)

theorem amps (L : Lapack (Fin 2)) (U : Fin 3 → Fin 2 → ℝ) : ampsOf (par L).cfg [1, 2, 3] (rowsOf U) = some (rowsOf U) :=
  ampsOf_simple L .frechet true .none 1 _ _ [1, 2, 3] _ (by simp [rowsOf]) (rowsOf_shape U).1 (rowsOf_shape U).2

/-- A control which increases linearly, and the rotation by its integral. -/
def ramp (s : ℝ) (c : Fin 2) : ℝ := if c = 0 then s else 0

def slope (_ : ℝ) (c : Fin 2) : ℝ := if c = 0 then 1 else 0

theorem ramp_deriv (c : Fin 2) (s : ℝ) (A : Set ℝ) : HasDerivWithinAt (fun s => ramp s c) (slope s c) A s := by
  unfold ramp slope
  by_cases h : c = 0
  · simp only [h, if_true]
    exact hasDerivWithinAt_id _ _
  · simp only [h, if_false]
    exact hasDerivWithinAt_const _ _ _

theorem ramp_le (c : Fin 2) {s : ℝ} (h0 : 0 ≤ s) (h6 : s ≤ 6) : |ramp s c| ≤ 6 := by
  unfold ramp
  split
  · rw [abs_of_nonneg h0]
    exact h6
  · simp

theorem slope_le (c : Fin 2) (s : ℝ) : |slope s c| ≤ 1 := by
  unfold slope
  split <;> simp

noncomputable def rotation (s : ℝ) : Matrix (Fin 2) (Fin 2) ℂ := NormedSpace.exp ((s ^ 2 / 2) • (-Complex.I) • (!![0, 1; 1, 0] : Matrix (Fin 2) (Fin 2) ℂ))

theorem total (L : Lapack (Fin 2)) : ∑ t, ((par L).xTimes [1, 2, 3]).get t = 6 := by
  show ∑ t : Fin 3, ([1, 2, 3] : List ℝ).get t = 6
  rw [Fin.sum_univ_three]
  simp
  norm_num

theorem continuous (L : Lapack (Fin 2)) : ContinuousSystem (par L) [1, 2, 3] (fun _ => 0) ramp rotation := by
  let _ : NormedAlgebra ℝ (Matrix (Fin 2) (Fin 2) ℂ) := NormedAlgebra.restrictScalars ℝ ℂ _
  have hd : ∀ s, HasDerivAt rotation ((-Complex.I) • (continuousHam (fun _ => 0) (par L).ctrl.get ramp s * rotation s)) s := by
    intro s
    have h1 : HasDerivAt (fun s : ℝ => s ^ 2 / 2) s s := by
      refine (((hasDerivAt_id s).pow 2).div_const 2).congr_deriv ?_
      simp
    have h2 := (hasDerivAt_exp_smul_const' ((-Complex.I) • (!![0, 1; 1, 0] : Matrix (Fin 2) (Fin 2) ℂ)) (s ^ 2 / 2)).scomp s h1
    refine h2.congr_deriv ?_
    have h3 : continuousHam (fun _ => 0) (par L).ctrl.get ramp s = (s : ℂ) • (!![0, 1; 1, 0] : Matrix (Fin 2) (Fin 2) ℂ) := by
      unfold continuousHam
      show _ + ∑ c : Fin 2, _ = _
      rw [Fin.sum_univ_two]
      simp [ramp, par]
    rw [h3, ← Complex.coe_smul, Matrix.smul_mul, Matrix.smul_mul, smul_comm]
    rfl
  refine ⟨?_, ?_, ?_, fun s _ => (hd s).continuousAt.continuousWithinAt, fun s _ => (hd s).hasDerivWithinAt⟩
  · show ∀ t : Fin 3, 0 ≤ ([1, 2, 3] : List ℝ).get t
    intro t
    fin_cases t <;> simp
  · show ∀ t : Fin 3, ∀ s ∈ _, (0 : Matrix (Fin 2) (Fin 2) ℂ) = ([0, 0, 0] : List (Matrix (Fin 2) (Fin 2) ℂ)).getD t 0
    intro t
    fin_cases t <;> simp
  · simp [rotation, par]

/-- `c136_lipschitz` and `c136_midpoint` for the ramp. -/
example : ∃ L : Lapack (Fin 2), Simulates (par L) [1, 2, 3] (fun A => A) none 1 false
      (rowsOf fun t : Fin 3 => ramp (gridPoint ((par L).xTimes [1, 2, 3]).get t)) (rotation (∑ t, ((par L).xTimes [1, 2, 3]).get t))
      (3 * (∑ t, ((par L).xTimes [1, 2, 3]).get t) * ∑ c, 1 * ‖(par L).ctrl.get c‖) ∧
    Ready (par L) [1, 2, 3] (rowsOf fun t : Fin 3 => ramp (gridPoint ((par L).xTimes [1, 2, 3]).get t))
      (fresh (par L).cfg [1, 2, 3] (rowsOf fun t : Fin 3 => ramp (gridPoint ((par L).xTimes [1, 2, 3]).get t))) ∧
    Simulates (par L) [1, 2, 3] (fun A => A) none 1 false
      (rowsOf fun t : Fin 3 => ramp ((gridPoint ((par L).xTimes [1, 2, 3]).get t + gridPoint ((par L).xTimes [1, 2, 3]).get (t + 1)) / 2))
      (rotation (∑ t, ((par L).xTimes [1, 2, 3]).get t))
      (3 ^ 2 / 4 * (∑ t, ((par L).xTimes [1, 2, 3]).get t) * ((∑ c, 0 * ‖(par L).ctrl.get c‖) +
        (0 + ∑ c, 6 * ‖(par L).ctrl.get c‖) * ∑ c, 1 * ‖(par L).ctrl.get c‖)) := by
  obtain ⟨L, -, -, hE, -⟩ := lapack_exists (Fin 2)
  have hw : ∀ t : Fin 3, ([1, 2, 3] : List ℝ).get t ≤ 3 := by
    intro t
    fin_cases t <;> norm_num
  refine ⟨L, ?_, ready_fresh _ _ _ _ (amps L _), ?_⟩
  · refine c136_lipschitz (par L) [1, 2, 3] _ none 1 false (system hE) (fun _ => 0) ramp rotation (continuous L) (fun _ => 1) ?_
      (fun t => gridPoint ((par L).xTimes [1, 2, 3]).get t) (fun t => ⟨le_rfl, gridPoint_mono (continuous L).steps (Nat.le_succ _)⟩) 3 hw
    intro c s _ s' _
    unfold ramp
    split <;> simp
  · exact c136_midpoint (par L) [1, 2, 3] _ none 1 false (system hE) (fun _ => 0) ramp slope rotation
      (continuous L) (fun _ => 6) (fun _ => 1) (fun _ => 0) 0 (by simp [par]) (fun c s _ => ramp_deriv c s _)
      (fun c s hs => ramp_le c hs.1 (by rw [total] at hs; exact hs.2)) (fun c s _ => slope_le c s) (fun _ => le_rfl)
      (fun c s _ s' _ => by simp [slope]) 3 hw

/-- `c136_stepped` for a constant control (`c136_deviation` is used above). -/
example : ∃ L : Lapack (Fin 2), ∃ f, (readFwd (par L).cfg (fresh (par L).cfg [1, 2, 3] (rowsOf fun (_ : Fin 3) => slope 0))).1 = .ok f ∧
    f.getLast? = some (NormedSpace.exp ((6 : ℝ) • (-Complex.I) • (!![0, 1; 1, 0] : Matrix (Fin 2) (Fin 2) ℂ))) := by
  let _ : NormedAlgebra ℝ (Matrix (Fin 2) (Fin 2) ℂ) := NormedAlgebra.restrictScalars ℝ ℂ _
  obtain ⟨L, -, -, hE, -⟩ := lapack_exists (Fin 2)
  have hd : ∀ s : ℝ, HasDerivAt (fun s : ℝ => NormedSpace.exp (s • (-Complex.I) • (!![0, 1; 1, 0] : Matrix (Fin 2) (Fin 2) ℂ)))
      ((-Complex.I) • (continuousHam (fun _ => 0) (par L).ctrl.get (fun _ => slope 0) s *
        NormedSpace.exp (s • (-Complex.I) • (!![0, 1; 1, 0] : Matrix (Fin 2) (Fin 2) ℂ)))) s := by
    intro s
    refine (hasDerivAt_exp_smul_const' ((-Complex.I) • (!![0, 1; 1, 0] : Matrix (Fin 2) (Fin 2) ℂ)) s).congr_deriv ?_
    have h3 : continuousHam (fun _ => 0) (par L).ctrl.get (fun _ => slope 0) s = (!![0, 1; 1, 0] : Matrix (Fin 2) (Fin 2) ℂ) := by
      unfold continuousHam
      show _ + ∑ c : Fin 2, _ = _
      rw [Fin.sum_univ_two]
      simp [slope, par]
    rw [h3, Matrix.smul_mul]
  have hc : ContinuousSystem (par L) [1, 2, 3] (fun _ => 0) (fun _ => slope 0)
      (fun s => NormedSpace.exp (s • (-Complex.I) • (!![0, 1; 1, 0] : Matrix (Fin 2) (Fin 2) ℂ))) := by
    refine ⟨(continuous L).steps, (continuous L).drift, by simp [par], fun s _ => (hd s).continuousAt.continuousWithinAt,
      fun s _ => (hd s).hasDerivWithinAt⟩
  obtain ⟨f, h1, h2, -⟩ := c136_stepped (par L) [1, 2, 3] (fun A => A) none 1 false (system hE) (fun _ => 0) _ _ hc
    (fun _ => slope 0) (fun _ _ _ => rfl) _ (ready_fresh _ _ _ _ (amps L _))
  refine ⟨L, f, h1, ?_⟩
  rw [total] at h2
  exact h2

end Ex136

end
end Verif.Cost
