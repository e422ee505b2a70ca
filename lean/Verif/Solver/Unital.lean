import Verif.Solver.Positivity
import Verif.Cost.Gradient

/-!
# C127: open systems with normal Lindblad operators

`LindbladSolver` (solver_algorithms.py:1778-2105), the model is in `Solver/Lindblad.lean`.
-/

namespace Verif.Solver
open Verif Verif.Operator Matrix
open scoped Kronecker

section
variable {n : Type} [Fintype n] [DecidableEq n]

/-! ## Specification -/

/-- The purity of a state. -/
noncomputable def purity (ρ : Matrix n n ℂ) : ℝ := (ρ * ρ).trace.re

/-- The square of the Hilbert-Schmidt distance of two states. -/
noncomputable def hsDist (ρ σ : Matrix n n ℂ) : ℝ := ∑ i, ∑ j, ‖ρ i j - σ i j‖ ^ 2

/-- The state at time index `i` of the evolution starting with `ρ`, given the forward propagators. -/
def stateAt (f : List (Sup n)) (i : Nat) (ρ : Matrix n n ℂ) : Matrix n n ℂ := unvec (f.getD i 0 *ᵥ Matrix.vec ρ)

/-! ## The generator does not increase the norm -/

/-- The square of the Euclidean norm. -/
noncomputable def sqLen {ι : Type} [Fintype ι] (v : ι → ℂ) : ℝ := ∑ i, ‖v i‖ ^ 2

omit [DecidableEq n] in
theorem sqLen_vec (X : Matrix n n ℂ) : sqLen (Matrix.vec X) = (Xᴴ * X).trace.re := by
  unfold sqLen
  rw [Fintype.sum_prod_type, Matrix.trace, Complex.re_sum]
  refine Finset.sum_congr rfl fun i _ => ?_
  rw [Matrix.diag_apply, Matrix.mul_apply, Complex.re_sum]
  refine Finset.sum_congr rfl fun j _ => ?_
  simp only [Matrix.vec, Matrix.conjTranspose_apply]
  rw [Complex.star_def, ← Complex.normSq_eq_conj_mul_self, Complex.ofReal_re, Complex.normSq_eq_norm_sq]

omit [DecidableEq n] in
theorem re_dot_vec (X Y : Matrix n n ℂ) : (∑ q, star (Matrix.vec X q) * Matrix.vec Y q) = (Xᴴ * Y).trace := by
  rw [Fintype.sum_prod_type, Matrix.trace]
  refine Finset.sum_congr rfl fun i _ => ?_
  rw [Matrix.diag_apply, Matrix.mul_apply]
  rfl

omit [DecidableEq n] in
theorem re_trace_le (A B : Matrix n n ℂ) : (Aᴴ * B).trace.re ≤ ((Aᴴ * A).trace.re + (Bᴴ * B).trace.re) / 2 := by
  have h : 0 ≤ ((A - B)ᴴ * (A - B)).trace.re := by
    rw [← sqLen_vec]
    exact Finset.sum_nonneg fun i _ => sq_nonneg _
  have h2 : (Bᴴ * A).trace.re = (Aᴴ * B).trace.re := by
    have : (Bᴴ * A) = (Aᴴ * B)ᴴ := by simp
    rw [this, Matrix.trace_conjTranspose, Complex.star_def, Complex.conj_re]
  rw [Matrix.conjTranspose_sub, Matrix.sub_mul, Matrix.mul_sub, Matrix.mul_sub] at h
  simp only [Matrix.trace_sub, Complex.sub_re] at h
  linarith

/-- The right hand side of a master equation with normal Lindblad operators and non-negative rates has no component
along the state. -/
theorem master_dissipative {H : Matrix n n ℂ} (hH : H.IsHermitian) (ws : List (ℝ × Matrix n n ℂ))
    (hw : ∀ q ∈ ws, 0 ≤ q.1 ∧ q.2ᴴ * q.2 = q.2 * q.2ᴴ) (X : Matrix n n ℂ) : (Xᴴ * master H ws X).trace.re ≤ 0 := by
  have h0 : (Xᴴ * ((-Complex.I) • (H * X - X * H))).trace.re = 0 := by
    have hr : ∀ Y : Matrix n n ℂ, Y.IsHermitian → Y.trace.im = 0 := by
      intro Y hY
      have := congrArg Complex.im (congrArg Matrix.trace hY.eq)
      rw [Matrix.trace_conjTranspose, Complex.star_def, Complex.conj_im] at this
      linarith
    have h1 := hr (Xᴴ * (H * X)) (by
      rw [Matrix.IsHermitian, Matrix.conjTranspose_mul, Matrix.conjTranspose_mul, hH.eq, Matrix.conjTranspose_conjTranspose,
        Matrix.mul_assoc])
    have h2 : (Xᴴ * (X * H)).trace.im = 0 := by
      rw [← Matrix.mul_assoc, Matrix.trace_mul_comm]
      have : (H * (Xᴴ * X)).trace = (X * (H * Xᴴ)).trace := by
        rw [← Matrix.mul_assoc, Matrix.trace_mul_comm]
      rw [this]
      refine hr _ ?_
      rw [Matrix.IsHermitian, Matrix.conjTranspose_mul, Matrix.conjTranspose_mul, hH.eq, Matrix.conjTranspose_conjTranspose,
        Matrix.mul_assoc]
    rw [Matrix.mul_smul, Matrix.trace_smul, Matrix.mul_sub, Matrix.trace_sub]
    simp [h1, h2]
  have h1 : (Xᴴ * (ws.map fun p => (p.1 : ℂ) • (p.2 * X * p.2ᴴ -
      (1 / 2 : ℂ) • (p.2ᴴ * p.2 * X + X * (p.2ᴴ * p.2)))).sum).trace.re ≤ 0 := by
    clear h0
    induction ws with
    | nil => simp
    | cons q ws ih =>
      rw [List.map_cons, List.sum_cons, Matrix.mul_add, Matrix.trace_add, Complex.add_re]
      refine add_nonpos ?_ (ih fun r hr => hw r (List.mem_cons_of_mem _ hr))
      obtain ⟨hq, hn⟩ := hw q (by simp)
      generalize q.2 = L at *
      rw [Matrix.mul_smul, Matrix.trace_smul, smul_eq_mul, Complex.re_ofReal_mul]
      refine mul_nonpos_of_nonneg_of_nonpos hq ?_
      have k := re_trace_le (Lᴴ * X) (X * Lᴴ)
      have k1 : (Lᴴ * X)ᴴ * (X * Lᴴ) = Xᴴ * (L * X * Lᴴ) := by
        simp [Matrix.mul_assoc]
      have k2 : (Lᴴ * X)ᴴ * (Lᴴ * X) = Xᴴ * (Lᴴ * L * X) := by
        rw [hn]
        simp [Matrix.mul_assoc]
      have k3 : ((X * Lᴴ)ᴴ * (X * Lᴴ)).trace = (Xᴴ * (X * (Lᴴ * L))).trace := by
        have : (X * Lᴴ)ᴴ * (X * Lᴴ) = L * (Xᴴ * X * Lᴴ) := by simp [Matrix.mul_assoc]
        rw [this, Matrix.trace_mul_comm]
        simp [Matrix.mul_assoc]
      rw [k1, k2, k3] at k
      rw [Matrix.mul_sub, Matrix.mul_smul, Matrix.mul_add, Matrix.trace_sub, Matrix.trace_smul, Matrix.trace_add]
      have : ((1 / 2 : ℂ)) = ((1 / 2 : ℝ) : ℂ) := by norm_num
      rw [this, smul_eq_mul, Complex.sub_re, Complex.re_ofReal_mul, Complex.add_re]
      linarith
  unfold master
  rw [Matrix.mul_add, Matrix.trace_add, Complex.add_re, h0, zero_add]
  exact h1

open scoped Matrix.Norms.Operator in
/-- The exponential of a dissipative matrix does not increase the norm. -/
theorem exp_contracts {ι : Type} [Fintype ι] [DecidableEq ι] {G : Matrix ι ι ℂ}
    (hG : ∀ v : ι → ℂ, (∑ i, star (v i) * (G *ᵥ v) i).re ≤ 0) {σ : ℝ} (hσ : 0 ≤ σ) (v : ι → ℂ) :
    sqLen (NormedSpace.exp ((σ : ℂ) • G) *ᵥ v) ≤ sqLen v := by
  have hd : ∀ s : ℝ, HasDerivAt (fun s : ℝ => sqLen (NormedSpace.exp (s • G) *ᵥ v))
      (2 * (∑ i, star ((NormedSpace.exp (s • G) *ᵥ v) i) * (G *ᵥ (NormedSpace.exp (s • G) *ᵥ v)) i).re) s := by
    intro s
    have h1 := hasDerivAt_exp_smul_const' (𝕂 := ℝ) G s
    have h2 : ∀ i, HasDerivAt (fun s : ℝ => (NormedSpace.exp (s • G) *ᵥ v) i) ((G *ᵥ (NormedSpace.exp (s • G) *ᵥ v)) i) s := by
      intro i
      rw [Matrix.mulVec_mulVec]
      have h3 : ∀ j, HasDerivAt (fun s : ℝ => NormedSpace.exp (s • G) i j) ((G * NormedSpace.exp (s • G)) i j) s := fun j =>
        ((Matrix.entryLinearMap ℝ ℂ i j).toContinuousLinearMap.hasFDerivAt).comp_hasDerivAt s h1
      simpa only [Matrix.mulVec, dotProduct] using HasDerivAt.fun_sum fun j _ => (h3 j).mul_const (v j)
    have h4 := HasDerivAt.fun_sum fun i (_ : i ∈ Finset.univ) => Cost.hasDerivAt_norm_sq (h2 i)
    refine h4.congr_deriv ?_
    rw [Complex.re_sum, Finset.mul_sum]
  have ha : Antitone fun s : ℝ => sqLen (NormedSpace.exp (s • G) *ᵥ v) :=
    antitone_of_deriv_nonpos (fun s => (hd s).differentiableAt) fun s => by
      rw [(hd s).deriv]
      have := hG (NormedSpace.exp (s • G) *ᵥ v)
      linarith
  have := ha hσ
  simp only [zero_smul, NormedSpace.exp_zero, Matrix.one_mulVec] at this
  have he : ((σ : ℂ) • G) = σ • G := by
    ext i j
    simp
  rwa [he]

theorem master_one {H : Matrix n n ℂ} (ws : List (ℝ × Matrix n n ℂ))
    (hw : ∀ q ∈ ws, q.2ᴴ * q.2 = q.2 * q.2ᴴ) : master H ws 1 = 0 := by
  unfold master
  rw [Matrix.mul_one, Matrix.one_mul, sub_self, smul_zero, zero_add]
  refine List.sum_eq_zero fun y hy => ?_
  obtain ⟨q, hq, rfl⟩ := List.mem_map.mp hy
  rw [Matrix.mul_one, Matrix.mul_one, Matrix.one_mul, hw q hq, ← two_smul ℂ, smul_smul]
  norm_num

theorem exp_eigen {ι : Type} [Fintype ι] [DecidableEq ι] {G : Matrix ι ι ℂ} {v : ι → ℂ} {c : ℂ} (h : G *ᵥ v = c • v) :
    NormedSpace.exp G *ᵥ v = Complex.exp c • v := by
  have h1 : (Matrix.of fun i (_ : ι) => v i) * (Matrix.diagonal fun _ : ι => c) = G * (Matrix.of fun i (_ : ι) => v i) := by
    ext i j
    have := congrFun h i
    simp only [Matrix.mulVec, dotProduct, Pi.smul_apply, smul_eq_mul] at this
    rw [Matrix.mul_apply, Matrix.mul_apply]
    simp only [Matrix.of_apply, this, Matrix.diagonal_apply, mul_ite, mul_zero, Finset.sum_ite_eq', Finset.mem_univ, if_true]
    ring
  have h2 := semiconj_exp h1
  rw [Matrix.exp_diagonal] at h2
  ext i
  have := congrFun (congrFun h2 i) i
  rw [Matrix.mul_apply, Matrix.mul_apply] at this
  simp only [Matrix.of_apply, Matrix.diagonal_apply, mul_ite, mul_zero, Finset.sum_ite_eq', Finset.mem_univ, if_true,
    Pi.coe_exp, ← Complex.exp_eq_exp_ℂ] at this
  rw [Pi.smul_apply, smul_eq_mul, mul_comm, this]
  rfl

theorem exp_fixes {ι : Type} [Fintype ι] [DecidableEq ι] {G : Matrix ι ι ℂ} {v : ι → ℂ} (h : G *ᵥ v = 0) (c : ℂ) :
    NormedSpace.exp (c • G) *ᵥ v = v := by
  have := exp_eigen (G := c • G) (v := v) (c := 0) (by rw [Matrix.smul_mulVec, h, smul_zero, zero_smul])
  rwa [Complex.exp_zero, one_smul] at this

/-- What a propagator of an open system with normal Lindblad operators does. -/
def Mixing (P : Sup n) : Prop :=
  P *ᵥ Matrix.vec 1 = Matrix.vec 1 ∧ ∀ v, sqLen (P *ᵥ v) ≤ sqLen v

theorem isForward_chain {good : Sup n → Prop} (hmul : ∀ A B, good A → good B → good (A * B)) (h1 : good 1) {init : Sup n}
    {ps f : List (Sup n)} (hf : IsForward init ps f) (hP : ∀ P ∈ ps, good P) (i k : Nat) (hk : i + k < f.length) :
    ∃ Q, good Q ∧ f.getD (i + k) 0 = Q * f.getD i 0 := by
  induction k with
  | zero => exact ⟨1, h1, by simp⟩
  | succ k ih =>
    obtain ⟨Q, hQ, e⟩ := ih (by omega)
    have hi : i + k < ps.length := by have := hf.1; omega
    obtain ⟨F, e1, e2⟩ := hf.2.2 (i + k) hi
    refine ⟨ps[i + k] * Q, hmul _ _ (hP _ (List.getElem_mem _)) hQ, ?_⟩
    rw [List.getD_eq_getElem?_getD, e1, Option.getD_some] at e
    rw [List.getD_eq_getElem?_getD, show i + (k + 1) = i + k + 1 by omega, e2, Option.getD_some, e, Matrix.mul_assoc]

omit [DecidableEq n] in
theorem vec_stateAt (f : List (Sup n)) (i : Nat) (ρ : Matrix n n ℂ) : Matrix.vec (stateAt f i ρ) = f.getD i 0 *ᵥ Matrix.vec ρ :=
  vec_unvec _

omit [DecidableEq n] in
theorem hsDist_eq (ρ σ : Matrix n n ℂ) : hsDist ρ σ = sqLen (Matrix.vec (ρ - σ)) := by
  unfold hsDist sqLen
  rw [Fintype.sum_prod_type, Finset.sum_comm]
  rfl

omit [DecidableEq n] in
theorem purity_eq {ρ : Matrix n n ℂ} (h : ρ.IsHermitian) : purity ρ = sqLen (Matrix.vec ρ) := by
  rw [sqLen_vec, h.eq]
  rfl

/-! ## The property -/

/-- **C127** With Hermitian Hamiltonians, normal Lindblad operators with non-negative prefactors and non-negative time steps the
totally mixed state does not change, the purity of a state never increases, and two states never move apart, from any time index
to any later one. -/
theorem c127_mixing (p : LPar n) (Ls : List (Matrix n n ℂ)) (times : List ℝ) (u x : Pulse)
    (hL : p.Lindblads Ls times u x) (hne : times ≠ []) (hd : p.drift.length = times.length)
    (hu : u.length = times.length) (hrow : ∀ row ∈ u, row.length = p.ctrl.length)
    (hdH : ∀ H ∈ p.drift, H.IsHermitian) (hcH : ∀ H ∈ p.ctrl, H.IsHermitian)
    (hm : p.method = .frechet) (hE : p.L.ExpmOk) (hi : p.init = 1) (hτ : ∀ τ ∈ times, 0 ≤ τ)
    (hw : ∀ f, p.diss.prefactor = some f → ∀ row ∈ f u x, ∀ w ∈ row, 0 ≤ w)
    (hN : ∀ L ∈ Ls, Lᴴ * L = L * Lᴴ) :
    ∃ f : List (Sup n), p.fwd times u x = .ok f ∧ f.length = times.length + 1 ∧
      (∀ i ≤ times.length, stateAt f i 1 = 1) ∧
      ∀ i j, i ≤ j → j ≤ times.length →
        (∀ ρ : Matrix n n ℂ, ρ.IsHermitian → purity (stateAt f j ρ) ≤ purity (stateAt f i ρ)) ∧
        ∀ ρ σ : Matrix n n ℂ, hsDist (stateAt f j ρ) (stateAt f j σ) ≤ hsDist (stateAt f i ρ) (stateAt f i σ) := by
  obtain ⟨g, hg, hl, hG⟩ := c38_generator p Ls times u x hL hne hd hrow hdH hcH
  obtain ⟨ps, f, h1, h2, h3, h4⟩ := p.run_ok (by rw [hm]; simp) times u x g hg hl
  have hP : ∀ P ∈ ps, Mixing P := by
    intro P hP
    rw [h3] at hP
    obtain ⟨t, ht, rfl⟩ := List.mem_map.mp hP
    have ht' := List.mem_range.mp ht
    have h5 : t < p.drift.length := by omega
    have h6 : t < u.length := by omega
    obtain ⟨G, e1, e2⟩ := hG t _ _ (List.getElem?_eq_getElem h5) (List.getElem?_eq_getElem h6)
    rw [propOf_base p hm hE, List.getD_eq_getElem?_getD (l := g), e1]
    have hws : ∀ q ∈ (weightsAt p Ls u x t).zip Ls, 0 ≤ q.1 ∧ q.2ᴴ * q.2 = q.2 * q.2ᴴ := by
      intro q hq
      refine ⟨?_, hN _ (List.of_mem_zip hq).2⟩
      have hq1 : q.1 ∈ weightsAt p Ls u x t := (List.of_mem_zip hq).1
      unfold weightsAt at hq1
      split at hq1
      · rw [List.eq_of_mem_replicate hq1]
        exact zero_le_one
      · next f hf =>
        rw [List.getD_eq_getElem?_getD] at hq1
        cases hr : (f u x)[t]? with
        | none => rw [hr] at hq1; simp at hq1
        | some row =>
          rw [hr] at hq1
          exact hw f hf row (List.mem_of_getElem? hr) _ hq1
    have hσ : 0 ≤ times.getD t 0 := by
      rw [List.getD_eq_getElem _ _ ht']
      exact hτ _ (List.getElem_mem _)
    refine ⟨exp_fixes ?_ _, fun v => exp_contracts (fun v => ?_) hσ v⟩
    · rw [Option.getD_some, e2, master_one _ fun q hq => (hws q hq).2]
      rfl
    · rw [← vec_unvec v, Option.getD_some, e2, re_dot_vec]
      exact master_dissipative (hamiltonian_isHermitian _ (hdH _ (List.getElem_mem _)) hcH) _ hws _
  have hlp : ps.length = times.length := by rw [h3]; simp
  have hfl : f.length = times.length + 1 := by rw [h4.1, hlp]
  have hmul : ∀ A B : Sup n, Mixing A → Mixing B → Mixing (A * B) := fun A B hA hB =>
    ⟨by rw [← Matrix.mulVec_mulVec, hB.1, hA.1], fun v => by
      rw [← Matrix.mulVec_mulVec]
      exact (hA.2 _).trans (hB.2 _)⟩
  have h0 : f.getD 0 0 = 1 := by
    rw [List.getD_eq_getElem?_getD, h4.2.1, Option.getD_some, hi]
  have hch := fun i k hk => isForward_chain hmul ⟨by simp, fun v => by simp⟩ h4 hP i k hk
  refine ⟨f, h2, hfl, fun i hi' => ?_, fun i j hij hj => ?_⟩
  · obtain ⟨Q, hQ, e⟩ := hch 0 i (by omega)
    rw [zero_add, h0, Matrix.mul_one] at e
    refine Matrix.vec_inj.mp ?_
    rw [vec_stateAt, e, hQ.1]
  · obtain ⟨k, rfl⟩ := Nat.exists_eq_add_of_le hij
    obtain ⟨Q, hQ, e⟩ := hch i k (by omega)
    have hs : ∀ ρ, Matrix.vec (stateAt f (i + k) ρ) = Q *ᵥ Matrix.vec (stateAt f i ρ) := fun ρ => by
      rw [vec_stateAt, vec_stateAt, e, Matrix.mulVec_mulVec]
    refine ⟨fun ρ hρ => ?_, fun ρ σ => ?_⟩
    · have hH : ∀ i ≤ times.length, (stateAt f i ρ).IsHermitian := by
        intro i hi'
        obtain ⟨-, f', -, b2, -, -, -, b6⟩ := c39_trace_hermitian p Ls times u x hL hne hd hu hrow hdH hcH hm hE hi
        rw [h2] at b2
        cases b2
        have hm' : f.getD i 0 ∈ f := by
          rw [List.getD_eq_getElem _ _ (by omega)]
          exact List.getElem_mem _
        obtain ⟨ρ', a1, -, a3⟩ := b6 _ hm' ρ
        have : stateAt f i ρ = ρ' := by
          refine Matrix.vec_inj.mp ?_
          rw [vec_stateAt, a1]
        rw [this]
        exact a3 hρ
      rw [purity_eq (hH _ hj), purity_eq (hH _ (by omega)), hs]
      exact hQ.2 _
    · rw [hsDist_eq, hsDist_eq, Matrix.vec_sub, Matrix.vec_sub, hs, hs, ← Matrix.mulVec_sub]
      exact hQ.2 _

namespace Ex127

/-- A qubit with a drive, dephased at a rate which depends on the time, during two steps. -/
noncomputable def noisy (L : Lapack (Fin 2 × Fin 2)) : LPar (Fin 2) :=
  ⟨L, .frechet, false, 1, [!![1, 0; 0, -1], !![1, 0; 0, -1]], [!![0, 1; 1, 0]],
    ⟨none, some [!![1, 0; 0, -1], !![0, 1; 1, 0]], some fun _ _ => [[1, 2], [3, 0]], none, none, none⟩⟩

example : ∃ (L : Lapack (Fin 2 × Fin 2)) (f : List (Sup (Fin 2))), (noisy L).fwd [1, 2] [[5], [-7]] [] = .ok f ∧
    stateAt f 2 1 = 1 ∧ purity (stateAt f 2 !![1, 0; 0, 0]) ≤ purity (stateAt f 1 !![1, 0; 0, 0]) ∧
    hsDist (stateAt f 2 !![1, 0; 0, 0]) (stateAt f 2 !![0, 0; 0, 1]) ≤
      hsDist (stateAt f 0 !![1, 0; 0, 0]) (stateAt f 0 !![0, 0; 0, 1]) := by
  obtain ⟨L, -, -, hE, -⟩ := lapack_exists (Fin 2 × Fin 2)
  have hz : (!![1, 0; 0, -1] : Matrix (Fin 2) (Fin 2) ℂ).IsHermitian := by
    ext i j; fin_cases i <;> fin_cases j <;> simp
  have hx : (!![0, 1; 1, 0] : Matrix (Fin 2) (Fin 2) ℂ).IsHermitian := by
    ext i j; fin_cases i <;> fin_cases j <;> simp
  have h0 : (!![1, 0; 0, 0] : Matrix (Fin 2) (Fin 2) ℂ).IsHermitian := by
    ext i j; fin_cases i <;> fin_cases j <;> simp
  obtain ⟨f, h1, -, h3, h4⟩ := c127_mixing (noisy L) [!![1, 0; 0, -1], !![0, 1; 1, 0]] [1, 2] [[5], [-7]] []
    ⟨rfl, rfl, by simp, fun f hf => by cases hf; exact ⟨rfl, by simp⟩⟩ (by simp) rfl rfl (by simp [noisy])
    (by simpa [noisy] using hz) (by simpa [noisy] using hx) rfl hE rfl (by simp)
    (fun f hf => by cases hf; simp) (by simp [hz.eq, hx.eq])
  exact ⟨L, f, h1, h3 2 le_rfl, (h4 1 2 (by simp) le_rfl).1 _ h0, (h4 0 2 (by simp) le_rfl).2 _ _⟩

/-- A qubit which decays during one step. -/
noncomputable def decaying (L : Lapack (Fin 2 × Fin 2)) : LPar (Fin 2) :=
  ⟨L, .frechet, false, 1, [0], [0], ⟨none, some [!![0, 1; 0, 0]], none, none, none, none⟩⟩

/-- The Lindblad operators have to be normal: decay makes the totally mixed state purer. -/
example : ∃ (L : Lapack (Fin 2 × Fin 2)) (f : List (Sup (Fin 2))), L.ExpmOk ∧
    (decaying L).fwd [1] [[0]] [] = .ok f ∧ stateAt f 1 1 ≠ 1 ∧ purity (stateAt f 0 1) < purity (stateAt f 1 1) := by
  obtain ⟨L, -, -, hE, -⟩ := lapack_exists (Fin 2 × Fin 2)
  obtain ⟨g, hg, hl, hG⟩ := c38_generator (decaying L) [!![0, 1; 0, 0]] [1] [[0]] []
    ⟨rfl, rfl, by simp, fun f hf => by cases hf⟩ (by simp) rfl (by simp [decaying]) (by simp [decaying]) (by simp [decaying])
  obtain ⟨G, e1, e2⟩ := hG 0 0 [0] rfl rfl
  obtain ⟨ps, f, h1, h2, h3, h4⟩ := (decaying L).run_ok (by simp [decaying]) [1] [[0]] [] _ hg hl
  have hF : f[1]? = some (NormedSpace.exp (((1 : ℝ) : ℂ) • G)) := by
    obtain ⟨b1, b2, b3⟩ := h4
    obtain ⟨F', a1, a2⟩ := b3 0 (by rw [h3]; simp)
    rw [b2] at a1
    cases a1
    rw [← propOf_base (decaying L) rfl hE, a2, show (decaying L).init = 1 from rfl, Matrix.mul_one]
    simp [h3, List.getD_eq_getElem?_getD, e1]
  have hl' : (!![0, 1; 0, 0] : Matrix (Fin 2) (Fin 2) ℂ)ᴴ = !![0, 0; 1, 0] := by
    ext i j; fin_cases i <;> fin_cases j <;> simp
  have hz : G *ᵥ Matrix.vec !![1, 0; 0, -1] = (-1 : ℂ) • Matrix.vec !![1, 0; 0, -1] := by
    rw [e2]
    ext ⟨j, i⟩
    fin_cases i <;> fin_cases j <;> simp [master, Matrix.vec, flip, hamiltonian, decaying, weightsAt, hl'] <;> norm_num
  have h1z : G *ᵥ Matrix.vec !![2, 0; 0, 0] = (0 : ℂ) • Matrix.vec !![2, 0; 0, 0] := by
    rw [e2]
    ext ⟨j, i⟩
    fin_cases i <;> fin_cases j <;> simp [master, Matrix.vec, flip, hamiltonian, decaying, weightsAt, hl']
  have hs : stateAt f 1 1 = !![2 - Complex.exp (-1), 0; 0, Complex.exp (-1)] := by
    refine Matrix.vec_inj.mp ?_
    have hone : (1 : Matrix (Fin 2) (Fin 2) ℂ) = !![2, 0; 0, 0] - !![1, 0; 0, -1] := by
      ext i j; fin_cases i <;> fin_cases j <;> simp; norm_num
    rw [vec_stateAt, List.getD_eq_getElem?_getD, hF, Option.getD_some, Complex.ofReal_one, one_smul, hone, Matrix.vec_sub,
      Matrix.mulVec_sub, exp_eigen hz, exp_eigen h1z]
    ext ⟨j, i⟩
    fin_cases i <;> fin_cases j <;> simp [Matrix.vec, flip]
  have h0 : stateAt f 0 1 = 1 := by
    refine Matrix.vec_inj.mp ?_
    rw [vec_stateAt, List.getD_eq_getElem?_getD, h4.2.1, Option.getD_some, show (decaying L).init = 1 from rfl,
      Matrix.one_mulVec]
  have he : Real.exp (-1) < 1 := Real.exp_lt_one_iff.2 (by norm_num)
  have hc : Complex.exp (-1) = ((Real.exp (-1) : ℝ) : ℂ) := by simp
  have hp : purity (stateAt f 0 1) < purity (stateAt f 1 1) := by
    rw [h0, hs, hc]
    generalize Real.exp (-1) = e at *
    simp [purity, Matrix.trace, Fin.sum_univ_two]
    nlinarith [sq_nonneg (1 - e), mul_pos (sub_pos.2 he) (sub_pos.2 he)]
  refine ⟨L, f, hE, h2, fun h => ?_, hp⟩
  rw [h, h0] at hp
  exact lt_irrefl _ hp

end Ex127
end
end Verif.Solver
