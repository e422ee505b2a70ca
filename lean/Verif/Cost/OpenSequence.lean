import Verif.Cost.OpenWorst
import Verif.Solver.OpenCompose
import Verif.Sim.Sequence

/-!
# C151: infidelities of sequences of gates of open systems

`OperationInfidelity` (cost_functions.py:1171-1275, super operators 1256-1259) on a `LindbladSolver` playing several pulses one after the
other, compared with the infidelities of the single pulses.
-/

namespace Verif.Cost
open Verif Verif.Operator Verif.Solver Matrix
open scoped Kronecker ComplexOrder

section
variable {n : Type} [Fintype n] [DecidableEq n]

/-! ## Specification -/

/-- One gate of a sequence: what happens in its time steps, and the operation it is meant to be. -/
structure OpenGate (n : Type) [Fintype n] [DecidableEq n] (cs : Option (List n)) where
  steps : List (OpenStep n)
  target : Matrix (CompIdx cs) (CompIdx cs) ℂ

/-- The gate can be evaluated by a solver with the controls and the dissipation of `p`: at least one time step, one amplitude for each
control, Hermitian drift, durations and rates which are not negative; and it is meant to be a unitary. -/
structure OpenGate.Ok {cs : Option (List n)} (p : LPar n) (g : OpenGate n cs) : Prop where
  nonempty : g.steps ≠ []
  cols : ∀ s ∈ g.steps, s.u.length = p.ctrl.length
  hermitian : ∀ s ∈ g.steps, s.H.IsHermitian
  durations : ∀ s ∈ g.steps, 0 ≤ s.τ
  rates : ∀ f, p.diss.prefactor = some f → ∀ s ∈ g.steps, ∀ row ∈ f [s.u] [s.x], ∀ w ∈ row, 0 ≤ w
  unitary : g.target ∈ Matrix.unitaryGroup (CompIdx cs) ℂ

/-- The gates played one after the other, the first one first. -/
def OpenGate.sequence {cs : Option (List n)} (gs : List (OpenGate n cs)) : OpenGate n cs :=
  ⟨gs.flatMap (·.steps), gs.foldl (fun T g => g.target * T) 1⟩

/-- What `OperationInfidelity.costs()` returns for the gate. -/
noncomputable def OpenGate.infidelity {cs : Option (List n)} (p : LPar n) (g : OpenGate n cs) : Except PyErr ℝ :=
  openRun p g.steps >>= opCostsSup cs g.target

/-! ## Lemmas -/

/-- A family of matrices as one vector. -/
noncomputable def fam {ι k : Type} [Fintype ι] [Fintype k] (X : ι → Matrix n k ℂ) : EuclideanSpace ℂ (ι × (n × k)) :=
  WithLp.toLp 2 fun i => X i.1 i.2.1 i.2.2

omit [DecidableEq n] in
theorem fam_inner {ι k : Type} [Fintype ι] [Fintype k] (X Y : ι → Matrix n k ℂ) :
    inner ℂ (fam X) (fam Y) = ∑ q, ((X q)ᴴ * Y q).trace := by
  rw [EuclideanSpace.inner_eq_star_dotProduct]
  simp only [fam, dotProduct, Fintype.sum_prod_type]
  refine Finset.sum_congr rfl fun q _ => ?_
  simp only [Matrix.trace, Matrix.diag, Matrix.mul_apply, Matrix.conjTranspose_apply]
  rw [Finset.sum_comm]
  refine Finset.sum_congr rfl fun a _ => Finset.sum_congr rfl fun i _ => ?_
  simp [mul_comm]

omit [DecidableEq n] in
theorem fam_norm {ι k : Type} [Fintype ι] [Fintype k] (X : ι → Matrix n k ℂ) (d : ℝ) (h : ∑ q, ((X q)ᴴ * X q).trace = (d : ℂ)) :
    ‖fam X‖ ^ 2 = d := by
  have e := @inner_self_eq_norm_sq_to_K ℂ _ _ _ _ (fam X)
  rw [fam_inner, h] at e
  have : ((d : ℝ) : ℂ) = ((‖fam X‖ ^ 2 : ℝ) : ℂ) := by
    rw [Complex.ofReal_pow]
    exact e
  exact_mod_cast this.symm

/-- The best normalised vector for a family of numbers. -/
theorem best_vector {ι : Type} [Fintype ι] [Nonempty ι] [DecidableEq ι] (c : ι → ℂ) :
    ∃ y : ι → ℂ, ∑ i, ‖y i‖ ^ 2 = 1 ∧ ‖∑ i, star (y i) * c i‖ ^ 2 = ∑ i, ‖c i‖ ^ 2 := by
  set N := ∑ i, ‖c i‖ ^ 2 with hN
  have hN0 : 0 ≤ N := Finset.sum_nonneg fun i _ => by positivity
  rcases hN0.eq_or_lt with h0 | h0
  · have hc : ∀ i, c i = 0 := by
      intro i
      have := (Finset.sum_eq_zero_iff_of_nonneg fun i _ => by positivity).mp h0.symm i (Finset.mem_univ i)
      simpa using this
    refine ⟨Pi.single (Classical.arbitrary ι) 1, ?_, ?_⟩
    · rw [Finset.sum_eq_single (Classical.arbitrary ι)] <;> simp +contextual
    · rw [← h0]
      simp [hc]
  · refine ⟨fun i => c i / (√N : ℂ), ?_, ?_⟩
    · simp only [norm_div, div_pow, Complex.norm_real, Real.norm_of_nonneg (Real.sqrt_nonneg N), Real.sq_sqrt hN0]
      rw [← Finset.sum_div, ← hN, div_self h0.ne']
    · have e : ∀ i, star (c i / (√N : ℂ)) * c i = ((‖c i‖ ^ 2 / √N : ℝ) : ℂ) := by
        intro i
        rw [star_div₀, div_mul_eq_mul_div]
        have h1 : star (c i) * c i = ((‖c i‖ ^ 2 : ℝ) : ℂ) := by
          rw [← Complex.normSq_eq_norm_sq, Complex.normSq_eq_conj_mul_self]
          rfl
        have h2 : star ((√N : ℝ) : ℂ) = ((√N : ℝ) : ℂ) := Complex.conj_ofReal _
        rw [h1, h2, Complex.ofReal_div]
      rw [Finset.sum_congr rfl fun i _ => e i, ← Complex.ofReal_sum, ← Finset.sum_div, ← hN, Complex.norm_real,
        Real.norm_of_nonneg (by positivity), div_pow, Real.sq_sqrt hN0, sq, mul_div_assoc, div_self h0.ne', mul_one]

theorem vector_le {ι : Type} [Fintype ι] (y c : ι → ℂ) (hy : ∑ i, ‖y i‖ ^ 2 = 1) :
    ‖∑ i, star (y i) * c i‖ ^ 2 ≤ ∑ i, ‖c i‖ ^ 2 := by
  have h := norm_inner_le_norm (𝕜 := ℂ) (WithLp.toLp 2 y : EuclideanSpace ℂ ι) (WithLp.toLp 2 c)
  have e : inner ℂ (WithLp.toLp 2 y : EuclideanSpace ℂ ι) (WithLp.toLp 2 c) = ∑ i, star (y i) * c i := by
    rw [EuclideanSpace.inner_eq_star_dotProduct]
    simp only [dotProduct]
    exact Finset.sum_congr rfl fun i _ => mul_comm _ _
  rw [e, EuclideanSpace.norm_eq, EuclideanSpace.norm_eq, hy, Real.sqrt_one, one_mul] at h
  have := pow_le_pow_left₀ (norm_nonneg _) h 2
  rwa [Real.sq_sqrt (Finset.sum_nonneg fun i _ => by positivity)] at this

/-- The overlap of one Kraus operator with the target. -/
noncomputable def ov (cs : Option (List n)) (T : Matrix (CompIdx cs) (CompIdx cs) ℂ) (K : Matrix n n ℂ) : ℂ :=
  ((embedding cs * T)ᴴ * (K * embedding cs)).trace

theorem entFidSup_kraus (cs : Option (List n)) (hcs : ∀ l, cs = some l → l.Nodup) (T : Matrix (CompIdx cs) (CompIdx cs) ℂ) {m : Nat}
    (K : Fin m → Matrix n n ℂ) :
    entFidSup cs T (∑ r, Solver.unitarySup (K r)) = (∑ r, ‖ov cs T (K r)‖ ^ 2) / dim cs / dim cs := by
  rw [entFidSup_sum, Finset.sum_congr rfl fun r _ =>
    (c46_super_operator (fun _ => 0) cs hcs T (K r)).trans (entFid_embedding _ cs T (K r)), ← Finset.sum_div, ← Finset.sum_div]
  rfl

theorem entFidSup_kraus_mul (cs : Option (List n)) (hcs : ∀ l, cs = some l → l.Nodup) (T : Matrix (CompIdx cs) (CompIdx cs) ℂ)
    {m₁ m₂ : Nat} (A : Fin m₁ → Matrix n n ℂ) (B : Fin m₂ → Matrix n n ℂ) :
    entFidSup cs T ((∑ s, Solver.unitarySup (B s)) * ∑ r, Solver.unitarySup (A r)) =
      (∑ q : Fin m₁ × Fin m₂, ‖ov cs T (B q.2 * A q.1)‖ ^ 2) / dim cs / dim cs := by
  have e : (∑ s, Solver.unitarySup (B s)) * ∑ r, Solver.unitarySup (A r) =
      ∑ r, ∑ s, Solver.unitarySup (B s * A r) := by
    rw [Matrix.mul_sum]
    refine Finset.sum_congr rfl fun r _ => ?_
    rw [Matrix.sum_mul]
    exact Finset.sum_congr rfl fun s _ => (unitarySup_mul _ _).symm
  rw [e, entFidSup_sum, Finset.sum_congr rfl fun r _ => entFidSup_kraus cs hcs T fun s => B s * A r, ← Finset.sum_div,
    ← Finset.sum_div, Fintype.sum_prod_type]

/-- The infidelity of two channels, one after the other. -/
theorem channel_two (cs : Option (List n)) (hcs : ∀ l, cs = some l → l.Nodup) (hne : Nonempty (CompIdx cs))
    (T₁ T₂ : Matrix (CompIdx cs) (CompIdx cs) ℂ) (h₁ : T₁ ∈ Matrix.unitaryGroup (CompIdx cs) ℂ)
    (h₂ : T₂ ∈ Matrix.unitaryGroup (CompIdx cs) ℂ) {m₁ m₂ : Nat} (A : Fin m₁ → Matrix n n ℂ) (B : Fin m₂ → Matrix n n ℂ)
    (hA : ∑ r, (A r)ᴴ * A r = 1) (hB : ∑ s, (B s)ᴴ * B s = 1) :
    √(1 - entFidSup cs (T₂ * T₁) ((∑ s, Solver.unitarySup (B s)) * ∑ r, Solver.unitarySup (A r))) ≤
      √(1 - entFidSup cs T₁ (∑ r, Solver.unitarySup (A r))) + √(1 - entFidSup cs T₂ (∑ s, Solver.unitarySup (B s))) ∧
    √(1 - entFidSup cs T₂ (∑ s, Solver.unitarySup (B s))) ≤
      √(1 - entFidSup cs (T₂ * T₁) ((∑ s, Solver.unitarySup (B s)) * ∑ r, Solver.unitarySup (A r))) +
        √(1 - entFidSup cs T₁ (∑ r, Solver.unitarySup (A r))) := by
  have hd : 0 < dim cs := by unfold dim; exact_mod_cast Fintype.card_pos_iff.mpr hne
  set E := embedding cs with hE
  have hEE : Eᴴ * E = 1 := embedding_isometry cs hcs
  have e1 : T₁ᴴ * T₁ = 1 := Matrix.mem_unitaryGroup_iff'.mp h₁
  have e1' : T₁ * T₁ᴴ = 1 := Matrix.mem_unitaryGroup_iff.mp h₁
  have e2 : T₂ᴴ * T₂ = 1 := Matrix.mem_unitaryGroup_iff'.mp h₂
  have hn : Nonempty n := ⟨sel cs hne.some⟩
  have hone : (1 : Matrix n n ℂ) ≠ 0 := one_ne_zero
  have hm₁ : Nonempty (Fin m₁) := by
    by_contra h
    rw [not_nonempty_iff] at h
    rw [Finset.univ_eq_empty, Finset.sum_empty] at hA
    exact hone hA.symm
  have hm₂ : Nonempty (Fin m₂) := by
    by_contra h
    rw [not_nonempty_iff] at h
    rw [Finset.univ_eq_empty, Finset.sum_empty] at hB
    exact hone hB.symm
  have hone' : (1 : Matrix (CompIdx cs) (CompIdx cs) ℂ).trace = ((dim cs : ℝ) : ℂ) := by
    rw [Matrix.trace_one]
    simp [dim]
  have hsq : ∀ z : ℂ, star z * z = ((‖z‖ ^ 2 : ℝ) : ℂ) := by
    intro z
    rw [← Complex.normSq_eq_norm_sq, Complex.normSq_eq_conj_mul_self]
    rfl
  -- the two gates
  have hu : ‖fam fun q : Fin m₁ × Fin m₂ => B q.2 * A q.1 * E‖ ^ 2 = dim cs := by
    refine fam_norm _ _ ?_
    rw [Fintype.sum_prod_type, ← hone', ← hEE]
    have e : ∀ r s, ((B s * A r * E)ᴴ * (B s * A r * E)).trace = (Eᴴ * ((A r)ᴴ * ((B s)ᴴ * B s) * A r) * E).trace := by
      intro r s
      simp only [Matrix.conjTranspose_mul, Matrix.mul_assoc]
    rw [Finset.sum_congr rfl fun r _ => Finset.sum_congr rfl fun s _ => e r s]
    have e' : ∀ r, ∑ s, (Eᴴ * ((A r)ᴴ * ((B s)ᴴ * B s) * A r) * E).trace = (Eᴴ * ((A r)ᴴ * A r) * E).trace := by
      intro r
      rw [← Matrix.trace_sum, ← Matrix.sum_mul, ← Matrix.mul_sum, ← Matrix.sum_mul, ← Matrix.mul_sum, hB, Matrix.mul_one]
    rw [Finset.sum_congr rfl fun r _ => e' r, ← Matrix.trace_sum, ← Matrix.sum_mul, ← Matrix.mul_sum, hA, Matrix.mul_one]
  -- the second gate after the first target
  have hv : ∀ y : Fin m₁ → ℂ, ∑ r, ‖y r‖ ^ 2 = 1 → ‖fam fun q : Fin m₁ × Fin m₂ => y q.1 • (B q.2 * E * T₁)‖ ^ 2 = dim cs := by
    intro y hy
    refine fam_norm _ _ ?_
    rw [Fintype.sum_prod_type]
    have e : ∀ r s, ((y r • (B s * E * T₁))ᴴ * (y r • (B s * E * T₁))).trace =
        ((‖y r‖ ^ 2 : ℝ) : ℂ) * (T₁ᴴ * (Eᴴ * ((B s)ᴴ * B s) * E) * T₁).trace := by
      intro r s
      rw [Matrix.conjTranspose_smul, Matrix.smul_mul, Matrix.mul_smul, smul_smul, Matrix.trace_smul, hsq, smul_eq_mul]
      simp only [Matrix.conjTranspose_mul, Matrix.mul_assoc]
    rw [Finset.sum_congr rfl fun r _ => Finset.sum_congr rfl fun s _ => e r s]
    have e' : ∑ s, (T₁ᴴ * (Eᴴ * ((B s)ᴴ * B s) * E) * T₁).trace = ((dim cs : ℝ) : ℂ) := by
      rw [← Matrix.trace_sum, ← Matrix.sum_mul, ← Matrix.mul_sum, ← Matrix.sum_mul, ← Matrix.mul_sum, hB, Matrix.mul_one, hEE,
        Matrix.mul_one, e1, hone']
    rw [Finset.sum_congr rfl fun r _ => (Finset.mul_sum _ _ _).symm, e', ← Finset.sum_mul, ← Complex.ofReal_sum, hy,
      Complex.ofReal_one, one_mul]
  -- both targets
  have hw : ∀ z : Fin m₁ × Fin m₂ → ℂ, ∑ q, ‖z q‖ ^ 2 = 1 →
      ‖fam fun q : Fin m₁ × Fin m₂ => z q • (E * (T₂ * T₁))‖ ^ 2 = dim cs := by
    intro z hz
    refine fam_norm _ _ ?_
    have e : ∀ q, ((z q • (E * (T₂ * T₁)))ᴴ * (z q • (E * (T₂ * T₁)))).trace = ((‖z q‖ ^ 2 : ℝ) : ℂ) * ((dim cs : ℝ) : ℂ) := by
      intro q
      rw [Matrix.conjTranspose_smul, Matrix.smul_mul, Matrix.mul_smul, smul_smul, Matrix.trace_smul, hsq, smul_eq_mul]
      congr 1
      have : (E * (T₂ * T₁))ᴴ * (E * (T₂ * T₁)) = T₁ᴴ * (T₂ᴴ * (Eᴴ * E) * T₂) * T₁ := by
        simp only [Matrix.conjTranspose_mul, Matrix.mul_assoc]
      rw [this, hEE, Matrix.mul_one, e2, Matrix.mul_one, e1, hone']
    rw [Finset.sum_congr rfl fun q _ => e q, ← Finset.sum_mul, ← Complex.ofReal_sum, hz, Complex.ofReal_one, one_mul]
  have hvu : ∀ y : Fin m₁ → ℂ, inner ℂ (fam fun q : Fin m₁ × Fin m₂ => y q.1 • (B q.2 * E * T₁))
      (fam fun q : Fin m₁ × Fin m₂ => B q.2 * A q.1 * E) = ∑ r, star (y r) * ov cs T₁ (A r) := by
    intro y
    rw [fam_inner, Fintype.sum_prod_type]
    refine Finset.sum_congr rfl fun r _ => ?_
    have e : ∀ s, ((y r • (B s * E * T₁))ᴴ * (B s * A r * E)).trace =
        star (y r) * (T₁ᴴ * (Eᴴ * ((B s)ᴴ * B s) * A r * E)).trace := by
      intro s
      rw [Matrix.conjTranspose_smul, Matrix.smul_mul, Matrix.trace_smul, smul_eq_mul]
      simp only [Matrix.conjTranspose_mul, Matrix.mul_assoc]
    rw [Finset.sum_congr rfl fun s _ => e s, ← Finset.mul_sum, ← Matrix.trace_sum, ← Matrix.mul_sum, ← Matrix.sum_mul, ← Matrix.sum_mul,
      ← Matrix.mul_sum, hB, Matrix.mul_one]
    unfold ov
    rw [Matrix.conjTranspose_mul]
    simp only [Matrix.mul_assoc]
    rfl
  have hwu : ∀ z : Fin m₁ × Fin m₂ → ℂ, inner ℂ (fam fun q : Fin m₁ × Fin m₂ => z q • (E * (T₂ * T₁)))
      (fam fun q : Fin m₁ × Fin m₂ => B q.2 * A q.1 * E) = ∑ q, star (z q) * ov cs (T₂ * T₁) (B q.2 * A q.1) := by
    intro z
    rw [fam_inner]
    refine Finset.sum_congr rfl fun q _ => ?_
    rw [Matrix.conjTranspose_smul, Matrix.smul_mul, Matrix.trace_smul, smul_eq_mul]
    rfl
  have hwv : ∀ (z : Fin m₁ × Fin m₂ → ℂ) (y : Fin m₁ → ℂ), inner ℂ (fam fun q : Fin m₁ × Fin m₂ => z q • (E * (T₂ * T₁)))
      (fam fun q : Fin m₁ × Fin m₂ => y q.1 • (B q.2 * E * T₁)) = ∑ q, star (z q) * (y q.1 * ov cs T₂ (B q.2)) := by
    intro z y
    rw [fam_inner]
    refine Finset.sum_congr rfl fun q _ => ?_
    rw [Matrix.conjTranspose_smul, Matrix.smul_mul, Matrix.mul_smul, Matrix.trace_smul, Matrix.trace_smul, smul_eq_mul, smul_eq_mul]
    congr 2
    have : (E * (T₂ * T₁))ᴴ * (B q.2 * E * T₁) = T₁ᴴ * ((E * T₂)ᴴ * (B q.2 * E)) * T₁ := by
      simp only [Matrix.conjTranspose_mul, Matrix.mul_assoc]
    rw [this, Matrix.trace_mul_cycle, e1', Matrix.one_mul]
    rfl
  rw [entFidSup_kraus cs hcs, entFidSup_kraus cs hcs, entFidSup_kraus_mul cs hcs]
  obtain ⟨y, hy, hyo⟩ := best_vector fun r => ov cs T₁ (A r)
  have hle : ∀ {a b : ℝ}, a ≤ b → √(1 - b / dim cs / dim cs) ≤ √(1 - a / dim cs / dim cs) := by
    intro a b hab
    refine Real.sqrt_le_sqrt (sub_le_sub_left ?_ 1)
    exact (div_le_div_iff_of_pos_right hd).mpr ((div_le_div_iff_of_pos_right hd).mpr hab)
  constructor
  · obtain ⟨x, hx, hxo⟩ := best_vector fun s => ov cs T₂ (B s)
    have hz : ∑ q : Fin m₁ × Fin m₂, ‖y q.1 * x q.2‖ ^ 2 = 1 := by
      simp only [norm_mul, mul_pow, Fintype.sum_prod_type]
      rw [Finset.sum_congr rfl fun r _ => (Finset.mul_sum _ _ _).symm, ← Finset.sum_mul, hx, hy, mul_one]
    have key := Sim.sin_triangle hd hu (hv y hy) (hw _ hz)
    rw [hvu, hyo, hwu, hwv] at key
    have e : ∑ q : Fin m₁ × Fin m₂, star (y q.1 * x q.2) * (y q.1 * ov cs T₂ (B q.2)) = ∑ s, star (x s) * ov cs T₂ (B s) := by
      rw [Fintype.sum_prod_type]
      have e' : ∀ r s, star (y r * x s) * (y r * ov cs T₂ (B s)) = ((‖y r‖ ^ 2 : ℝ) : ℂ) * (star (x s) * ov cs T₂ (B s)) := by
        intro r s
        rw [← hsq, star_mul']
        ring
      rw [Finset.sum_congr rfl fun r _ => (Finset.sum_congr rfl fun s _ => e' r s).trans (Finset.mul_sum _ _ _).symm, ← Finset.sum_mul,
        ← Complex.ofReal_sum, hy, Complex.ofReal_one, one_mul]
    rw [e, hxo] at key
    exact (hle (vector_le _ _ hz)).trans key
  · obtain ⟨z, hz, hzo⟩ := best_vector fun q : Fin m₁ × Fin m₂ => ov cs (T₂ * T₁) (B q.2 * A q.1)
    have key := Sim.sin_triangle hd (hv y hy) hu (hw _ hz)
    rw [norm_inner_symm (fam fun q : Fin m₁ × Fin m₂ => B q.2 * A q.1 * E),
      hvu, hyo, hwu, hzo, hwv] at key
    have e : ∑ q : Fin m₁ × Fin m₂, ‖y q.1 * ov cs T₂ (B q.2)‖ ^ 2 = ∑ s, ‖ov cs T₂ (B s)‖ ^ 2 := by
      simp only [norm_mul, mul_pow, Fintype.sum_prod_type]
      rw [Finset.sum_congr rfl fun r _ => (Finset.mul_sum _ _ _).symm, ← Finset.sum_mul, hy, one_mul]
    have h := vector_le z (fun q => y q.1 * ov cs T₂ (B q.2)) hz
    rw [e] at h
    have := (hle h).trans key
    linarith

/-- A gate has Kraus operators, and its infidelity is that of the final super operator. -/
theorem OpenGate.Ok.value {cs : Option (List n)} {p : LPar n} {Ls : List (Matrix n n ℂ)} (h : p.Local Ls) (hm : p.method = .frechet)
    (hE : p.L.ExpmOk) (hi : p.init = 1) (hc : ∀ H ∈ p.ctrl, H.IsHermitian) {g : OpenGate n cs} (hg : g.Ok p) :
    ∃ (f : List (Sup n)) (m : Nat) (K : Fin m → Matrix n n ℂ), openRun p g.steps = .ok f ∧
      f.getLast? = some (∑ r, Solver.unitarySup (K r)) ∧ ∑ r, (K r)ᴴ * K r = 1 ∧
      g.infidelity p = .ok (1 - entFidSup cs g.target (∑ r, Solver.unitarySup (K r))) := by
  obtain ⟨f, m, K, h1, h2, h3⟩ := open_last { p with drift := g.steps.map OpenStep.H } Ls (g.steps.map OpenStep.τ)
    (g.steps.map OpenStep.u) (g.steps.map OpenStep.x) (Local.lindblads h g.steps _) (by simpa using hg.nonempty) (by simp) (by simp)
    (by
      intro row hrow
      obtain ⟨s, hs, rfl⟩ := List.mem_map.mp hrow
      exact hg.cols s hs)
    (by
      intro H hH
      obtain ⟨s, hs, rfl⟩ := List.mem_map.mp hH
      exact hg.hermitian s hs) hc hm hE hi
    (by
      intro τ hτ
      obtain ⟨s, hs, rfl⟩ := List.mem_map.mp hτ
      exact hg.durations s hs)
    (by
      intro f hf row hrow w hw
      obtain ⟨φ, e1, -⟩ := h.2.2.2 f hf
      rw [e1] at hrow
      obtain ⟨i, hi, rfl⟩ := List.getElem_of_mem hrow
      have hi' : i < g.steps.length := by simpa using hi
      refine hg.rates f hf g.steps[i] (List.getElem_mem _) (φ g.steps[i].u g.steps[i].x) ?_ w ?_
      · rw [e1]; simp
      · simpa using hw)
  refine ⟨f, m, K, h1, h2, h3, ?_⟩
  unfold OpenGate.infidelity
  rw [show openRun p g.steps = .ok f from h1]
  simp only [bind, Except.bind]
  unfold opCostsSup
  rw [last_ok h2]
  rfl

theorem OpenGate.Ok.range {cs : Option (List n)} (hcs : ∀ l, cs = some l → l.Nodup) (hne : Nonempty (CompIdx cs)) {p : LPar n}
    {Ls : List (Matrix n n ℂ)} (h : p.Local Ls) (hm : p.method = .frechet) (hE : p.L.ExpmOk) (hi : p.init = 1)
    (hc : ∀ H ∈ p.ctrl, H.IsHermitian) {g : OpenGate n cs} (hg : g.Ok p) : ∃ c : ℝ, g.infidelity p = .ok c ∧ 0 ≤ c := by
  obtain ⟨f, m, K, -, -, h3, h4⟩ := hg.value h hm hE hi hc
  refine ⟨_, h4, ?_⟩
  rw [infidelity_kraus cs hcs (Fintype.card_pos_iff.mpr hne) g.target (Matrix.mem_unitaryGroup_iff'.mp hg.unitary) K h3]
  unfold dim
  positivity

/-- One gate after the other. -/
def OpenGate.andThen {cs : Option (List n)} (g₁ g₂ : OpenGate n cs) : OpenGate n cs := ⟨g₁.steps ++ g₂.steps, g₂.target * g₁.target⟩

theorem OpenGate.Ok.andThen {cs : Option (List n)} {p : LPar n} {g₁ g₂ : OpenGate n cs} (h₁ : g₁.Ok p) (h₂ : g₂.Ok p) :
    (g₁.andThen g₂).Ok p := by
  refine ⟨by simp [OpenGate.andThen, h₁.nonempty], ?_, ?_, ?_, ?_, mul_mem h₂.unitary h₁.unitary⟩
  · intro s hs
    rcases List.mem_append.mp hs with hs | hs
    exacts [h₁.cols s hs, h₂.cols s hs]
  · intro s hs
    rcases List.mem_append.mp hs with hs | hs
    exacts [h₁.hermitian s hs, h₂.hermitian s hs]
  · intro s hs
    rcases List.mem_append.mp hs with hs | hs
    exacts [h₁.durations s hs, h₂.durations s hs]
  · intro f hf s hs
    rcases List.mem_append.mp hs with hs | hs
    exacts [h₁.rates f hf s hs, h₂.rates f hf s hs]

theorem two_open_gates {cs : Option (List n)} (hcs : ∀ l, cs = some l → l.Nodup) (hne : Nonempty (CompIdx cs)) {p : LPar n}
    {Ls : List (Matrix n n ℂ)} (h : p.Local Ls) (hm : p.method = .frechet) (hE : p.L.ExpmOk) (hi : p.init = 1)
    (hc : ∀ H ∈ p.ctrl, H.IsHermitian) {g₁ g₂ : OpenGate n cs} (h₁ : g₁.Ok p) (h₂ : g₂.Ok p) :
    ∃ c₁ c₂ c : ℝ, g₁.infidelity p = .ok c₁ ∧ g₂.infidelity p = .ok c₂ ∧ (g₁.andThen g₂).infidelity p = .ok c ∧
      √c ≤ √c₁ + √c₂ ∧ √c₂ ≤ √c + √c₁ := by
  obtain ⟨f₁, m₁, A, a1, a2, a3, a4⟩ := h₁.value h hm hE hi hc
  obtain ⟨f₂, m₂, B, b1, b2, b3, b4⟩ := h₂.value h hm hE hi hc
  obtain ⟨f₁', f₂', f, E₁, E₂, k1, k2, k3, k4, k5, k6⟩ := c128_product p Ls h hm hE hi g₁.steps g₂.steps h₁.nonempty h₂.nonempty
    (h₁.andThen h₂).cols
  rw [a1] at k1
  cases k1
  rw [b1] at k2
  cases k2
  rw [a2] at k4
  cases k4
  rw [b2] at k5
  cases k5
  obtain ⟨e1, e2⟩ := channel_two cs hcs hne g₁.target g₂.target h₁.unitary h₂.unitary A B a3 b3
  refine ⟨_, _, _, a4, b4, ?_, e1, e2⟩
  unfold OpenGate.infidelity
  rw [show openRun p (g₁.andThen g₂).steps = .ok f from k3]
  simp only [bind, Except.bind]
  unfold opCostsSup
  rw [last_ok k6]
  rfl

theorem open_sequence_append {cs : Option (List n)} (gs : List (OpenGate n cs)) (g : OpenGate n cs) :
    OpenGate.sequence (gs ++ [g]) = (OpenGate.sequence gs).andThen g := by
  simp [OpenGate.sequence, OpenGate.andThen]

theorem open_sequence_one {cs : Option (List n)} (g : OpenGate n cs) : OpenGate.sequence [g] = g := by
  simp [OpenGate.sequence]

theorem open_sequence_ok {cs : Option (List n)} {p : LPar n} (gs : List (OpenGate n cs)) (h0 : gs ≠ []) (h : ∀ g ∈ gs, g.Ok p) :
    (OpenGate.sequence gs).Ok p := by
  induction gs using List.reverseRecOn with
  | nil => exact absurd rfl h0
  | append_singleton gs g ih =>
    by_cases h1 : gs = []
    · subst h1
      rw [List.nil_append, open_sequence_one]
      exact h g (by simp)
    · rw [open_sequence_append]
      exact (ih h1 fun k hk => h k (by simp [hk])).andThen (h g (by simp))

/-! ## The property -/

/-- **C151** The square root of the infidelity of a sequence of gates is at most the sum of the square roots of the infidelities of
the gates, also with dissipation. -/
theorem c151_sequence (p : LPar n) (Ls : List (Matrix n n ℂ)) (h : p.Local Ls) (hm : p.method = .frechet) (hE : p.L.ExpmOk)
    (hi : p.init = 1) (hc : ∀ H ∈ p.ctrl, H.IsHermitian) (cs : Option (List n)) (hcs : ∀ l, cs = some l → l.Nodup)
    (hne : Nonempty (CompIdx cs)) (gs : List (OpenGate n cs)) (h0 : gs ≠ []) (hg : ∀ g ∈ gs, g.Ok p) :
    ∃ (c : ℝ) (cg : List ℝ), (OpenGate.sequence gs).infidelity p = .ok c ∧ gs.map (OpenGate.infidelity p) = cg.map .ok ∧
      0 ≤ c ∧ (∀ x ∈ cg, 0 ≤ x) ∧ √c ≤ (cg.map Real.sqrt).sum := by
  induction gs using List.reverseRecOn with
  | nil => exact absurd rfl h0
  | append_singleton gs g ih =>
    obtain ⟨c₂, hc₂, hp₂⟩ := (hg g (by simp)).range hcs hne h hm hE hi hc
    by_cases h1 : gs = []
    · subst h1
      rw [List.nil_append, open_sequence_one]
      exact ⟨c₂, [c₂], hc₂, by simp [hc₂], hp₂, by simpa using hp₂, by simp⟩
    · have hgs : ∀ k ∈ gs, k.Ok p := fun k hk => hg k (by simp [hk])
      obtain ⟨c₁, cg, e1, e2, e3, e4, e5⟩ := ih h1 hgs
      obtain ⟨a, b, c, f1, f2, f3, f4, -⟩ := two_open_gates hcs hne h hm hE hi hc (open_sequence_ok gs h1 hgs) (hg g (by simp))
      obtain ⟨c', q1, q2⟩ := ((open_sequence_ok gs h1 hgs).andThen (hg g (by simp))).range hcs hne h hm hE hi hc
      rw [e1] at f1
      cases f1
      rw [hc₂] at f2
      cases f2
      rw [f3] at q1
      cases q1
      refine ⟨c, cg ++ [c₂], by rw [open_sequence_append]; exact f3, by simp [e2, hc₂], q2, ?_, ?_⟩
      · intro x hx
        rcases List.mem_append.mp hx with hx | hx
        · exact e4 x hx
        · rw [List.mem_singleton.mp hx]; exact hp₂
      · rw [List.map_append, List.sum_append]
        simp only [List.map_cons, List.map_nil, List.sum_cons, List.sum_nil, add_zero]
        linarith

/-- **C151** A gate repeated `k` times has at most `k²` times its infidelity, also with dissipation. -/
theorem c151_repeated (p : LPar n) (Ls : List (Matrix n n ℂ)) (h : p.Local Ls) (hm : p.method = .frechet) (hE : p.L.ExpmOk)
    (hi : p.init = 1) (hc : ∀ H ∈ p.ctrl, H.IsHermitian) (cs : Option (List n)) (hcs : ∀ l, cs = some l → l.Nodup)
    (hne : Nonempty (CompIdx cs)) (g : OpenGate n cs) (hg : g.Ok p) (k : Nat) (hk : 0 < k) :
    (OpenGate.sequence (List.replicate k g)).target = g.target ^ k ∧
    ∃ c c₁ : ℝ, (OpenGate.sequence (List.replicate k g)).infidelity p = .ok c ∧ g.infidelity p = .ok c₁ ∧ 0 ≤ c₁ ∧
      c ≤ k ^ 2 * c₁ := by
  refine ⟨?_, ?_⟩
  · clear hk
    induction k with
    | zero => simp [OpenGate.sequence]
    | succ k ih =>
      rw [List.replicate_succ', open_sequence_append]
      show g.target * _ = _
      rw [ih, pow_succ']
  · obtain ⟨c₁, hc₁, hp₁⟩ := hg.range hcs hne h hm hE hi hc
    obtain ⟨c, cg, e1, e2, e3, -, e5⟩ := c151_sequence p Ls h hm hE hi hc cs hcs hne (List.replicate k g)
      (by simp; omega) (fun x hx => by rw [List.eq_of_mem_replicate hx]; exact hg)
    refine ⟨c, c₁, e1, hc₁, hp₁, ?_⟩
    rw [List.map_replicate, hc₁] at e2
    have e6 : cg = List.replicate k c₁ := by
      refine List.eq_replicate_iff.mpr ⟨?_, fun x hx => ?_⟩
      · have := congrArg List.length e2
        simpa using this.symm
      · have : (Except.ok x : Except PyErr ℝ) ∈ cg.map Except.ok := List.mem_map_of_mem hx
        rw [← e2] at this
        exact Except.ok.inj (List.eq_of_mem_replicate this)
    rw [e6, List.map_replicate, List.sum_replicate, nsmul_eq_mul] at e5
    have e7 := mul_self_le_mul_self (Real.sqrt_nonneg c) e5
    rw [Real.mul_self_sqrt e3] at e7
    have e8 : (k : ℝ) * √c₁ * (k * √c₁) = k ^ 2 * c₁ := by
      rw [show (k : ℝ) * √c₁ * (k * √c₁) = k ^ 2 * (√c₁ * √c₁) by ring, Real.mul_self_sqrt hp₁]
    linarith

/-- **C151** A bad gate is not hidden by a good one played before it. -/
theorem c151_not_hidden (p : LPar n) (Ls : List (Matrix n n ℂ)) (h : p.Local Ls) (hm : p.method = .frechet) (hE : p.L.ExpmOk)
    (hi : p.init = 1) (hc : ∀ H ∈ p.ctrl, H.IsHermitian) (cs : Option (List n)) (hcs : ∀ l, cs = some l → l.Nodup)
    (hne : Nonempty (CompIdx cs)) (g₁ g₂ : OpenGate n cs) (h₁ : g₁.Ok p) (h₂ : g₂.Ok p) :
    ∃ c₁ c₂ c : ℝ, g₁.infidelity p = .ok c₁ ∧ g₂.infidelity p = .ok c₂ ∧ (OpenGate.sequence [g₁, g₂]).infidelity p = .ok c ∧
      √c₂ - √c₁ ≤ √c := by
  obtain ⟨c₁, c₂, c, e1, e2, e3, -, e5⟩ := two_open_gates hcs hne h hm hE hi hc h₁ h₂
  refine ⟨c₁, c₂, c, e1, e2, ?_, by linarith⟩
  rw [show [g₁, g₂] = [g₁] ++ [g₂] from rfl, open_sequence_append, open_sequence_one]
  exact e3

/-! ## Concrete cases -/

namespace Ex151

/-- A qubit which is heated or cooled, at rates given by the two transferred parameters. -/
noncomputable def bath (L : Lapack (Fin 2 × Fin 2)) : LPar (Fin 2) :=
  ⟨L, .frechet, false, 1, [], [], ⟨none, some [!![0, 1; 0, 0], !![0, 0; 1, 0]],
    some fun u x => List.zipWith (fun _ y => [y.getD 0 0, y.getD 1 0]) u x, none, none, none⟩⟩

theorem bath_local (L : Lapack (Fin 2 × Fin 2)) : (bath L).Local [!![0, 1; 0, 0], !![0, 0; 1, 0]] :=
  ⟨rfl, rfl, by simp, fun f hf => by cases hf; exact ⟨fun _ y => [y.getD 0 0, y.getD 1 0], fun _ _ => rfl, fun _ _ => rfl⟩⟩

/-- Idling on the ground state while the qubit is cooled with rate `a` and heated with rate `b`. -/
noncomputable def idle (a b : ℝ) : OpenGate (Fin 2) (some [0]) := ⟨[⟨0, 1, [], [a, b]⟩], 1⟩

theorem idle_ok (L : Lapack (Fin 2 × Fin 2)) {a b : ℝ} (ha : 0 ≤ a) (hb : 0 ≤ b) : (idle a b).Ok (bath L) where
  nonempty := by simp [idle]
  cols := by simp [idle, bath]
  hermitian := by
    intro s hs
    simp only [idle, List.mem_singleton] at hs
    subst hs
    exact Matrix.conjTranspose_zero
  durations := by simp [idle]
  rates := by
    intro f hf s hs
    cases hf
    simp only [idle, List.mem_singleton] at hs
    subst hs
    simp [ha, hb]
  unitary := one_mem _

/-- The fidelity of idling in the ground state is the population which stays. -/
theorem ground_fidelity (P : Sup (Fin 2)) : entFidSup (some [(0 : Fin 2)]) 1 P = ((P *ᵥ Matrix.vec !![1, 0; 0, 0]) (0, 0)).re := by
  have hd : dim (some [(0 : Fin 2)]) = 1 := by
    have : dim (some [(0 : Fin 2)]) = ((Fintype.card (Fin 1) : ℕ) : ℝ) := rfl
    rw [this]; simp
  have e1 : projComp [(0 : Fin 2)] = !![1, 0; 0, 0] := by
    ext i j; fin_cases i <;> fin_cases j <;> simp [projComp, setEntry]
  have e2 : fillTarget [(0 : Fin 2)] (1 : Matrix (Fin 1) (Fin 1) ℂ)ᴴ = !![1, 0; 0, 0] := by
    ext i j; fin_cases i <;> fin_cases j <;> simp [fillTarget, setEntry, List.finRange]
  have e3 : entFidSup (some [(0 : Fin 2)]) 1 P =
      (unitarySup (projComp [(0 : Fin 2)]) * unitarySup (fillTarget [(0 : Fin 2)] (1 : Matrix (Fin 1) (Fin 1) ℂ)ᴴ) * P).trace.re /
        dim (some [(0 : Fin 2)]) / dim (some [(0 : Fin 2)]) := rfl
  rw [e3, hd, e1, e2, ← unitarySup_mul, div_one, div_one]
  congr 1
  simp [Matrix.trace, Matrix.mul_apply, Matrix.mulVec, dotProduct, Fintype.sum_prod_type, Fin.sum_univ_two, unitarySup, conjM,
    Matrix.vec, Matrix.kroneckerMap_apply]

/-- Rate equations of the two populations. -/
theorem rates (L : Lapack (Fin 2 × Fin 2)) (a b : ℝ) (p q : ℂ) :
    Solver.stepGen (bath L) [!![0, 1; 0, 0], !![0, 0; 1, 0]] ⟨0, 1, [], [a, b]⟩ *ᵥ Matrix.vec !![p, 0; 0, q] =
      (a * q - b * p : ℂ) • Matrix.vec !![1, 0; 0, -1] := by
  have hl : (!![0, 1; 0, 0] : Matrix (Fin 2) (Fin 2) ℂ)ᴴ = !![0, 0; 1, 0] := by
    ext i j; fin_cases i <;> fin_cases j <;> simp
  have hr : (!![0, 0; 1, 0] : Matrix (Fin 2) (Fin 2) ℂ)ᴴ = !![0, 1; 0, 0] := by
    ext i j; fin_cases i <;> fin_cases j <;> simp
  have hH : hamiltonian (0 : Matrix (Fin 2) (Fin 2) ℂ) (bath L).ctrl [] = 0 := by simp [hamiltonian, bath]
  unfold Solver.stepGen
  rw [hH, supGen_mulVec _ _ Matrix.conjTranspose_zero, wDiss_mulVec]
  ext ⟨j, i⟩
  fin_cases i <;> fin_cases j <;> simp [flip, weightsAt, bath, hl, hr] <;> ring

theorem final_one (L : Lapack (Fin 2 × Fin 2)) (hE : L.ExpmOk) (a b : ℝ) :
    ∃ f, openRun (bath L) (idle a b).steps = .ok f ∧
      f.getLast? = some (stepProp (bath L) [!![0, 1; 0, 0], !![0, 0; 1, 0]] ⟨0, 1, [], [a, b]⟩) := by
  obtain ⟨f, h1, h2⟩ := openRun_ok (bath L) (bath_local L) rfl hE (idle a b).steps (by simp [idle]) (by simp [idle, bath])
  refine ⟨f, h1, ?_⟩
  rw [List.getLast?_eq_getElem?, h2.1, Nat.add_sub_cancel, isForward_unique h2 _ le_rfl, List.take_length,
    show (bath L).init = 1 from rfl]
  simp [idle]

theorem cost_of {p : LPar (Fin 2)} {g : OpenGate (Fin 2) (some [0])} {f : List (Sup (Fin 2))} {P : Sup (Fin 2)}
    (h1 : openRun p g.steps = .ok f) (h2 : f.getLast? = some P) (hg : g.target = 1) :
    g.infidelity p = .ok (1 - ((P *ᵥ Matrix.vec !![1, 0; 0, 0]) (0, 0)).re) := by
  unfold OpenGate.infidelity
  rw [h1, hg]
  simp only [bind, Except.bind]
  unfold opCostsSup
  rw [last_ok h2, ← ground_fidelity]
  rfl

/-- What one step does to the two populations, for heating and for cooling. -/
theorem heat (L : Lapack (Fin 2 × Fin 2)) :
    stepProp (bath L) [!![0, 1; 0, 0], !![0, 0; 1, 0]] ⟨0, 1, [], [0, 1]⟩ *ᵥ Matrix.vec !![1, 0; 0, 0] =
      Matrix.vec !![Complex.exp (-1), 0; 0, 1 - Complex.exp (-1)] := by
  have e1 : (!![1, 0; 0, 0] : Matrix (Fin 2) (Fin 2) ℂ) = !![0, 0; 0, 1] + !![1, 0; 0, -1] := by
    ext i j; fin_cases i <;> fin_cases j <;> simp
  have h1 := rates L 0 1 0 1
  have h2 := rates L 0 1 1 (-1)
  have h3 : ((0 : ℝ) * (1 : ℂ) - (1 : ℝ) * 0 : ℂ) • Matrix.vec (!![1, 0; 0, -1] : Matrix (Fin 2) (Fin 2) ℂ) =
      (0 : ℂ) • Matrix.vec !![0, 0; 0, 1] := by simp
  have h4 : ((0 : ℝ) * (-1 : ℂ) - (1 : ℝ) * 1 : ℂ) = -1 := by simp
  unfold stepProp
  rw [Complex.ofReal_one, one_smul, e1, Matrix.vec_add, Matrix.mulVec_add, exp_eigen (h1.trans h3), exp_eigen (by rw [h2, h4])]
  ext ⟨j, i⟩
  fin_cases i <;> fin_cases j <;> simp [Matrix.vec, flip, sub_eq_add_neg]

theorem cool (L : Lapack (Fin 2 × Fin 2)) (r : ℂ) :
    stepProp (bath L) [!![0, 1; 0, 0], !![0, 0; 1, 0]] ⟨0, 1, [], [1, 0]⟩ *ᵥ Matrix.vec !![r, 0; 0, 1 - r] =
      Matrix.vec !![1 - (1 - r) * Complex.exp (-1), 0; 0, (1 - r) * Complex.exp (-1)] := by
  have e1 : (!![r, 0; 0, 1 - r] : Matrix (Fin 2) (Fin 2) ℂ) = !![1, 0; 0, 0] + (r - 1) • !![1, 0; 0, -1] := by
    ext i j; fin_cases i <;> fin_cases j <;> simp
  have h1 := rates L 1 0 1 0
  have h2 := rates L 1 0 1 (-1)
  have h3 : ((1 : ℝ) * (0 : ℂ) - (0 : ℝ) * 1 : ℂ) • Matrix.vec (!![1, 0; 0, -1] : Matrix (Fin 2) (Fin 2) ℂ) =
      (0 : ℂ) • Matrix.vec !![1, 0; 0, 0] := by simp
  have h4 : ((1 : ℝ) * (-1 : ℂ) - (0 : ℝ) * 1 : ℂ) = -1 := by simp
  unfold stepProp
  rw [Complex.ofReal_one, one_smul, e1, Matrix.vec_add, Matrix.vec_smul, Matrix.mulVec_add, Matrix.mulVec_smul, exp_eigen (h1.trans h3),
    exp_eigen (by rw [h2, h4])]
  ext ⟨j, i⟩
  fin_cases i <;> fin_cases j <;> simp [Matrix.vec, flip] <;> ring

end Ex151

/-- **C151** The other order is different with dissipation: an error which leaves the computational subspace may be repaired by a gate
which is perfect on this subspace. For Hermitian evolutions this cannot happen (C123). -/
theorem c151_repaired : ∃ (p : LPar (Fin 2)) (Ls : List (Matrix (Fin 2) (Fin 2) ℂ)) (g₁ g₂ : OpenGate (Fin 2) (some [0])),
    p.Local Ls ∧ p.method = .frechet ∧ p.L.ExpmOk ∧ p.init = 1 ∧ (∀ H ∈ p.ctrl, H.IsHermitian) ∧ g₁.Ok p ∧ g₂.Ok p ∧
    ∃ c₁ c₂ c : ℝ, g₁.infidelity p = .ok c₁ ∧ g₂.infidelity p = .ok c₂ ∧ (OpenGate.sequence [g₁, g₂]).infidelity p = .ok c ∧
      c₂ = 0 ∧ √c < √c₁ - √c₂ := by
  obtain ⟨L, -, -, hE, -⟩ := lapack_exists (Fin 2 × Fin 2)
  have h₁ := Ex151.idle_ok L (a := 0) (b := 1) le_rfl zero_le_one
  have h₂ := Ex151.idle_ok L (a := 1) (b := 0) zero_le_one le_rfl
  obtain ⟨f₁, a1, a2⟩ := Ex151.final_one L hE 0 1
  obtain ⟨f₂, b1, b2⟩ := Ex151.final_one L hE 1 0
  obtain ⟨f₁', f₂', f, E₁, E₂, k1, k2, k3, k4, k5, k6⟩ := c128_product (Ex151.bath L) _ (Ex151.bath_local L) rfl hE rfl
    (Ex151.idle 0 1).steps (Ex151.idle 1 0).steps h₁.nonempty h₂.nonempty (h₁.andThen h₂).cols
  rw [a1] at k1
  cases k1
  rw [b1] at k2
  cases k2
  rw [a2] at k4
  cases k4
  rw [b2] at k5
  cases k5
  have hc : Complex.exp (-1) = ((Real.exp (-1) : ℝ) : ℂ) := by simp
  have he : Real.exp (-1) < 1 := Real.exp_lt_one_iff.2 (by norm_num)
  have he0 : 0 < Real.exp (-1) := Real.exp_pos _
  have v₁ := Ex151.cost_of a1 a2 rfl
  have v₂ := Ex151.cost_of b1 b2 rfl
  have v := Ex151.cost_of (g := (Ex151.idle 0 1).andThen (Ex151.idle 1 0)) k3 k6 (by simp [OpenGate.andThen, Ex151.idle])
  rw [Ex151.heat, hc] at v₁
  have e1 : (!![1, 0; 0, 0] : Matrix (Fin 2) (Fin 2) ℂ) = !![1, 0; 0, 1 - 1] := by simp
  rw [e1, Ex151.cool] at v₂
  rw [← Matrix.mulVec_mulVec, Ex151.heat, Ex151.cool, hc] at v
  rw [← open_sequence_one (Ex151.idle 0 1), ← open_sequence_append] at v
  refine ⟨Ex151.bath L, _, Ex151.idle 0 1, Ex151.idle 1 0, Ex151.bath_local L, rfl, hE, rfl, by simp [Ex151.bath], h₁, h₂, _, _, _, v₁, v₂,
    v, ?_, ?_⟩
  · simp [Matrix.vec]
  · generalize Real.exp (-1) = e at *
    have w₁ : 1 - ((Matrix.vec (!![(e : ℂ), 0; 0, 1 - (e : ℂ)] : Matrix (Fin 2) (Fin 2) ℂ)) (0, 0)).re = 1 - e := by simp [Matrix.vec]
    have w₂ : 1 - ((Matrix.vec (!![1 - (1 - 1) * (Complex.exp (-1)), 0; 0, (1 - 1) * Complex.exp (-1)] : Matrix (Fin 2) (Fin 2) ℂ)) (0, 0)).re = 0 := by
      simp [Matrix.vec]
    have w : 1 - ((Matrix.vec (!![1 - (1 - (e : ℂ)) * (e : ℂ), 0; 0, (1 - (e : ℂ)) * (e : ℂ)] : Matrix (Fin 2) (Fin 2) ℂ)) (0, 0)).re = (1 - e) * e := by
      simp [Matrix.vec]
    rw [w₁, w₂, w, Real.sqrt_zero, sub_zero]
    exact Real.sqrt_lt_sqrt (by nlinarith) (by nlinarith)

/-- The heated qubit, then the cooled one, three times: the hypotheses of the other theorems hold. -/
example : ∃ (p : LPar (Fin 2)) (g₁ g₂ : OpenGate (Fin 2) (some [0])) (c : ℝ) (cg : List ℝ) (c' c₁ : ℝ),
    (OpenGate.sequence [g₁, g₂, g₁]).infidelity p = .ok c ∧ [g₁, g₂, g₁].map (OpenGate.infidelity p) = cg.map .ok ∧
    √c ≤ (cg.map Real.sqrt).sum ∧ (OpenGate.sequence (List.replicate 5 g₁)).infidelity p = .ok c' ∧ g₁.infidelity p = .ok c₁ ∧
    c' ≤ 5 ^ 2 * c₁ := by
  obtain ⟨L, -, -, hE, -⟩ := lapack_exists (Fin 2 × Fin 2)
  have h₁ := Ex151.idle_ok L (a := 0) (b := 1) le_rfl zero_le_one
  have h₂ := Ex151.idle_ok L (a := 1) (b := 2) zero_le_one (by norm_num)
  have hcs : ∀ l, some [(0 : Fin 2)] = some l → l.Nodup := fun l h => by cases h; simp
  have hne : Nonempty (CompIdx (some [(0 : Fin 2)])) := ⟨(0 : Fin 1)⟩
  obtain ⟨c, cg, e1, e2, -, -, e3⟩ := c151_sequence (Ex151.bath L) _ (Ex151.bath_local L) rfl hE rfl (by simp [Ex151.bath]) (some [0]) hcs
    hne [Ex151.idle 0 1, Ex151.idle 1 2, Ex151.idle 0 1] (by simp) (by
      intro g hg
      simp only [List.mem_cons, List.not_mem_nil, or_false] at hg
      rcases hg with rfl | rfl | rfl
      exacts [h₁, h₂, h₁])
  obtain ⟨-, c', c₁, f1, f2, -, f3⟩ := c151_repeated (Ex151.bath L) _ (Ex151.bath_local L) rfl hE rfl (by simp [Ex151.bath]) (some [0]) hcs
    hne (Ex151.idle 0 1) h₁ 5 (by norm_num)
  exact ⟨_, _, _, c, cg, c', c₁, e1, e2, e3, f1, f2, by exact_mod_cast f3⟩

end
end Verif.Cost
