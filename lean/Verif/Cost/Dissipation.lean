import Verif.Cost.LindbladTotal
import Verif.Cost.Sensitivity
import Verif.Solver.Positivity
import Verif.Sim.Sequence
import Mathlib.Analysis.ODE.Gronwall
import Mathlib.Analysis.CStarAlgebra.Spectrum

/-!
# C124: how much dissipation can change the infidelity

`OperationInfidelity` (cost_functions.py:1171-1275) computed by `LindbladSolver` (solver_algorithms.py:1778-2105), compared with
the infidelity of the same pulse computed by a closed system solver.
-/

namespace Verif.Cost
open Verif Verif.Operator Verif.Solver Matrix
open scoped Kronecker

section
open scoped Matrix.Norms.L2Operator
variable {n : Type} [Fintype n] [DecidableEq n]

/-! ## Specification -/

/-- The strength of the dissipation, accumulated over the pulse: twice the sum of duration, rate and squared operator norm of the
Lindblad operator. -/
noncomputable def dissStrength (times : List ℝ) (rates : Nat → List ℝ) (Ls : List (Matrix n n ℂ)) : ℝ :=
  ((List.range times.length).map fun t =>
    |times.getD t 0| * (((rates t).zip Ls).map fun q => |q.1| * (2 * ‖q.2‖ ^ 2)).sum).sum

/-! ## Norms of super operators -/

/-- `B ↦ 1 ⊗ B` as homomorphism of star algebras. -/
def kronRight (n : Type) [Fintype n] [DecidableEq n] : Matrix n n ℂ →⋆ₐ[ℂ] Matrix (n × n) (n × n) ℂ where
  toFun B := (1 : Matrix n n ℂ) ⊗ₖ B
  map_one' := Matrix.one_kronecker_one
  map_mul' A B := by rw [← Matrix.mul_kronecker_mul, Matrix.one_mul]
  map_zero' := Matrix.kronecker_zero _
  map_add' A B := Matrix.kronecker_add _ _ _
  commutes' r := by
    rw [Algebra.algebraMap_eq_smul_one, Algebra.algebraMap_eq_smul_one, Matrix.kronecker_smul, Matrix.one_kronecker_one]
  map_star' A := by
    rw [Matrix.star_eq_conjTranspose, Matrix.star_eq_conjTranspose, Matrix.conjTranspose_kronecker, Matrix.conjTranspose_one]

/-- `A ↦ A ⊗ 1` as homomorphism of star algebras. -/
def kronLeft (n : Type) [Fintype n] [DecidableEq n] : Matrix n n ℂ →⋆ₐ[ℂ] Matrix (n × n) (n × n) ℂ where
  toFun A := A ⊗ₖ (1 : Matrix n n ℂ)
  map_one' := Matrix.one_kronecker_one
  map_mul' A B := by rw [← Matrix.mul_kronecker_mul, Matrix.one_mul]
  map_zero' := Matrix.zero_kronecker _
  map_add' A B := Matrix.add_kronecker _ _ _
  commutes' r := by
    rw [Algebra.algebraMap_eq_smul_one, Algebra.algebraMap_eq_smul_one, Matrix.smul_kronecker, Matrix.one_kronecker_one]
  map_star' A := by
    rw [Matrix.star_eq_conjTranspose, Matrix.star_eq_conjTranspose, Matrix.conjTranspose_kronecker, Matrix.conjTranspose_one]

theorem norm_kron_le (A B : Matrix n n ℂ) : ‖A ⊗ₖ B‖ ≤ ‖A‖ * ‖B‖ := by
  have h : A ⊗ₖ B = kronLeft n A * kronRight n B := by
    show _ = (A ⊗ₖ (1 : Matrix n n ℂ)) * ((1 : Matrix n n ℂ) ⊗ₖ B)
    rw [← Matrix.mul_kronecker_mul, Matrix.one_mul, Matrix.mul_one]
  rw [h]
  exact (Matrix.l2_opNorm_mul _ _).trans (mul_le_mul (NonUnitalStarAlgHom.norm_apply_le (kronLeft n) A)
    (NonUnitalStarAlgHom.norm_apply_le (kronRight n) B) (norm_nonneg _) (norm_nonneg _))

theorem norm_conjM_le (A : Matrix n n ℂ) : ‖conjM A‖ ≤ ‖A‖ := by
  rw [← Matrix.l2_opNorm_toEuclideanCLM]
  refine ContinuousLinearMap.opNorm_le_bound _ (norm_nonneg _) fun x => ?_
  have h := Matrix.l2_opNorm_mulVec A (WithLp.toLp 2 (star (WithLp.ofLp x)))
  have hx : ‖(WithLp.toLp 2 (star (WithLp.ofLp x)) : EuclideanSpace ℂ n)‖ = ‖x‖ := by
    rw [EuclideanSpace.norm_eq, EuclideanSpace.norm_eq]
    simp
  rw [hx] at h
  refine le_trans (le_of_eq ?_) h
  rw [EuclideanSpace.norm_eq, EuclideanSpace.norm_eq]
  congr 1
  refine Finset.sum_congr rfl fun i _ => ?_
  congr 1
  have e : (toEuclideanCLM (n := n) (𝕜 := ℂ) (conjM A) x).ofLp i = star ((A *ᵥ star (WithLp.ofLp x)) i) := by
    rw [Matrix.ofLp_toEuclideanCLM]
    simp [Matrix.mulVec, dotProduct, conjM]
  rw [e, norm_star]
  rfl

/-- The dissipation super operator of a Lindblad operator is bounded. -/
theorem norm_dissOf_le (L : Matrix n n ℂ) : ‖dissOf L‖ ≤ 2 * ‖L‖ ^ 2 := by
  have h0 := norm_nonneg L
  have h1 : ‖conjM L ⊗ₖ L‖ ≤ ‖L‖ ^ 2 := by
    refine (norm_kron_le _ _).trans ?_
    rw [sq]
    exact mul_le_mul_of_nonneg_right (norm_conjM_le L) h0
  have h2 : ‖(1 : Matrix n n ℂ) ⊗ₖ (Lᴴ * L)‖ ≤ ‖L‖ ^ 2 := by
    refine (norm_kron_le _ _).trans ?_
    rw [Matrix.l2_opNorm_conjTranspose_mul_self]
    nlinarith [norm_one_le (k := n), mul_nonneg h0 h0]
  have h3 : ‖(Lᵀ * conjM L) ⊗ₖ (1 : Matrix n n ℂ)‖ ≤ ‖L‖ ^ 2 := by
    have e : Lᵀ * conjM L = conjM (Lᴴ * L) := by
      rw [conjM_mul]
      simp [conjM_eq]
    refine (norm_kron_le _ _).trans ?_
    have h4 := norm_conjM_le (Lᴴ * L)
    rw [Matrix.l2_opNorm_conjTranspose_mul_self] at h4
    rw [e]
    nlinarith [norm_one_le (k := n), mul_nonneg h0 h0, norm_nonneg (conjM (Lᴴ * L)), norm_nonneg (1 : Matrix n n ℂ)]
  unfold dissOf
  refine (norm_sub_le _ _).trans ((add_le_add (norm_sub_le _ _) le_rfl).trans ?_)
  rw [norm_smul, norm_smul]
  norm_num
  linarith

theorem norm_wDiss_le (ws : List (ℝ × Matrix n n ℂ)) : ‖wDiss ws‖ ≤ (ws.map fun q => |q.1| * (2 * ‖q.2‖ ^ 2)).sum := by
  unfold wDiss
  induction ws with
  | nil => simp
  | cons q ws ih =>
    simp only [List.map_cons, List.sum_cons]
    refine (norm_add_le _ _).trans (add_le_add ?_ ih)
    rw [norm_smul, Complex.norm_real, Real.norm_eq_abs]
    exact mul_le_mul_of_nonneg_left (norm_dissOf_le _) (abs_nonneg _)

/-! ## Evolutions -/

/-- How much a perturbation of the generator changes a unitary evolution. -/
theorem exp_perturbed {k : Type} [Fintype k] [DecidableEq k] {A B : Matrix k k ℂ} (hA : Aᴴ = -A) :
    ‖NormedSpace.exp (A + B) - NormedSpace.exp A‖ ≤ Real.exp ‖B‖ - 1 := by
  let _ : NormedAlgebra ℝ (Matrix k k ℂ) := NormedAlgebra.restrictScalars ℝ ℂ _
  have hu : ∀ s : ℝ, NormedSpace.exp (s • A) ∈ unitary (Matrix k k ℂ) := by
    intro s
    refine exp_skew_unitary ?_
    rw [Matrix.conjTranspose_smul, hA]
    simp
  have hinv : ∀ s : ℝ, NormedSpace.exp (s • A) * NormedSpace.exp ((-s) • A) = 1 := by
    intro s
    have := Matrix.exp_add_of_commute (s • A) ((-s) • A) (((Commute.refl A).smul_left _).smul_right _)
    rw [← this]
    simp
  set f : ℝ → Matrix k k ℂ := fun s => NormedSpace.exp ((-s) • A) * NormedSpace.exp (s • (A + B)) - 1 with hf
  have hd : ∀ s : ℝ, HasDerivAt f (NormedSpace.exp ((-s) • A) * B * NormedSpace.exp (s • (A + B))) s := by
    intro s
    have h1 : HasDerivAt (fun s : ℝ => NormedSpace.exp (s • (A + B))) ((A + B) * NormedSpace.exp (s • (A + B))) s :=
      hasDerivAt_exp_smul_const' (A + B) s
    have h2 : HasDerivAt (fun s : ℝ => NormedSpace.exp ((-s) • A)) (-(NormedSpace.exp ((-s) • A) * A)) s := by
      have h3 := (hasDerivAt_exp_smul_const A (-s : ℝ)).scomp s (hasDerivAt_neg s)
      simpa [Function.comp_def] using h3
    refine ((h2.fun_mul h1).sub_const 1).congr_deriv ?_
    noncomm_ring
  have hb : ∀ s : ℝ, ‖NormedSpace.exp ((-s) • A) * B * NormedSpace.exp (s • (A + B))‖ ≤ ‖B‖ * ‖f s‖ + ‖B‖ := by
    intro s
    have e : NormedSpace.exp (s • (A + B)) = NormedSpace.exp (s • A) * (f s + 1) := by
      rw [hf]
      simp only [sub_add_cancel]
      rw [← Matrix.mul_assoc, hinv, Matrix.one_mul]
    rw [Matrix.mul_assoc, CStarRing.norm_mem_unitary_mul _ (hu _)]
    refine (Matrix.l2_opNorm_mul _ _).trans ?_
    rw [e, CStarRing.norm_mem_unitary_mul _ (hu _)]
    have h1 := (norm_add_le (f s) 1).trans (add_le_add le_rfl (norm_one_le (k := k)))
    nlinarith [norm_nonneg B]
  have hg := norm_le_gronwallBound_of_norm_deriv_right_le (f := f) (δ := 0) (K := ‖B‖) (ε := ‖B‖) (a := 0) (b := 1)
    (fun s _ => (hd s).continuousAt.continuousWithinAt) (fun s _ => (hd s).hasDerivWithinAt) (by simp [hf]) (fun s _ => hb s)
    1 ⟨zero_le_one, le_rfl⟩
  have e : NormedSpace.exp (A + B) - NormedSpace.exp A = NormedSpace.exp A * f 1 := by
    have := hinv 1
    rw [one_smul] at this
    rw [hf]
    simp only [one_smul, mul_sub, mul_one]
    rw [← Matrix.mul_assoc, this, Matrix.one_mul]
  have hA' := hu 1
  rw [one_smul] at hA'
  rw [e, CStarRing.norm_mem_unitary_mul _ hA']
  refine hg.trans (le_of_eq ?_)
  by_cases h0 : ‖B‖ = 0
  · rw [h0, gronwallBound_K0]
    simp
  · rw [gronwallBound_of_K_ne_0 h0]
    simp [h0]

/-- The errors of the steps of an evolution accumulate. -/
theorem foldl_perturbed {k α : Type} [Fintype k] [DecidableEq k] (P U : α → Matrix k k ℂ) (b : α → ℝ) :
    ∀ (l : List α) (F G : Matrix k k ℂ) (X : ℝ), (∀ a ∈ l, ‖P a - U a‖ ≤ Real.exp (b a) - 1 ∧ ‖U a‖ ≤ 1) → ‖G‖ ≤ 1 →
    ‖F - G‖ ≤ Real.exp X - 1 →
    ‖(l.map P).foldl (fun F P => P * F) F - (l.map U).foldl (fun F P => P * F) G‖ ≤ Real.exp (X + (l.map b).sum) - 1 := by
  intro l
  induction l with
  | nil => intro F G X _ _ h; simpa using h
  | cons a l ih =>
    intro F G X h hG hF
    simp only [List.map_cons, List.foldl_cons, List.sum_cons]
    rw [← add_assoc]
    obtain ⟨h1, h2⟩ := h a (by simp)
    refine ih _ _ _ (fun a' ha' => h a' (by simp [ha'])) ?_ ?_
    · exact (Matrix.l2_opNorm_mul _ _).trans (by nlinarith [norm_nonneg G, norm_nonneg (U a)])
    · have e : P a * F - U a * G = (P a - U a) * F + U a * (F - G) := by noncomm_ring
      have hFn : ‖F‖ ≤ Real.exp X := by
        have : F = (F - G) + G := by abel
        rw [this]
        exact (norm_add_le _ _).trans (by linarith)
      rw [e, Real.exp_add]
      refine (norm_add_le _ _).trans ((add_le_add (Matrix.l2_opNorm_mul _ _) (Matrix.l2_opNorm_mul _ _)).trans ?_)
      have h3 : ‖P a - U a‖ * ‖F‖ ≤ (Real.exp (b a) - 1) * Real.exp X :=
        mul_le_mul h1 hFn (norm_nonneg _) ((norm_nonneg _).trans h1)
      have h4 : ‖U a‖ * ‖F - G‖ ≤ 1 * (Real.exp X - 1) := mul_le_mul h2 hF (norm_nonneg _) zero_le_one
      linarith

/-! ## Fidelities -/

/-- What the super operator of the embedded target traces is the block of the super operator on the computational states. -/
theorem trace_fillTarget_sup (l : List n) (hl : l.Nodup) (A : Matrix (Fin l.length) (Fin l.length) ℂ) (X : Sup n) :
    (unitarySup (projComp l) * unitarySup (fillTarget l A) * X).trace =
      ((conjM A ⊗ₖ A) * X.submatrix (Prod.map l.get l.get) (Prod.map l.get l.get)).trace := by
  set S : Matrix n (Fin l.length) ℂ := (1 : Matrix n n ℂ).submatrix id l.get with hS
  have hsub : ∀ U : Matrix n n ℂ, Sᴴ * U * S = U.submatrix l.get l.get := by
    intro U
    ext i j
    simp [hS, Matrix.mul_apply, Matrix.one_apply]
  have hM : projComp l * fillTarget l A = S * A * Sᴴ := by
    refine Matrix.ext_iff_trace_mul_right.mpr fun U => ?_
    rw [trace_fillTarget l hl, ← hsub, Matrix.trace_mul_comm, Matrix.mul_assoc _ S, Matrix.trace_mul_comm, ← Matrix.mul_assoc]
  have hc : (projComp l * fillTarget l A).map (starRingEnd ℂ) = S * A.map (starRingEnd ℂ) * Sᴴ := by
    rw [hM, Matrix.map_mul, Matrix.map_mul]
    congr 2 <;> ext i j <;> simp [hS, Matrix.one_apply]
  have hX : (S ⊗ₖ S)ᴴ * X * (S ⊗ₖ S) = X.submatrix (Prod.map l.get l.get) (Prod.map l.get l.get) := by
    have e : S ⊗ₖ S = (1 : Sup n).submatrix id (Prod.map l.get l.get) := by
      ext ⟨i, j⟩ ⟨a, b⟩
      simp only [hS, Matrix.kroneckerMap_apply, Matrix.submatrix_apply, id, Matrix.one_apply, Prod.map_apply, Prod.mk.injEq]
      split_ifs <;> simp_all
    rw [e]
    ext i j
    simp [Matrix.mul_apply, Matrix.one_apply]
  rw [← unitarySup_mul, ← hX]
  unfold unitarySup conjM
  rw [hc, hM, Matrix.mul_kronecker_mul, Matrix.mul_kronecker_mul, ← Matrix.conjTranspose_kronecker]
  rw [Matrix.mul_assoc, Matrix.mul_assoc, Matrix.trace_mul_comm, Matrix.mul_assoc, Matrix.mul_assoc]

theorem unitarySup_unitary {k : Type} [Fintype k] [DecidableEq k] {A : Matrix k k ℂ} (hA : A ∈ Matrix.unitaryGroup k ℂ) :
    conjM A ⊗ₖ A ∈ Matrix.unitaryGroup (k × k) ℂ := by
  rw [Matrix.mem_unitaryGroup_iff] at hA ⊢
  rw [Matrix.star_eq_conjTranspose] at hA ⊢
  rw [Matrix.conjTranspose_kronecker, ← Matrix.mul_kronecker_mul, hA]
  have : conjM A * (conjM A)ᴴ = conjM (A * Aᴴ) := by
    rw [conjM_mul]
    congr 1
  rw [this, hA, conjM_eq]
  simp

theorem entFidSup_le (cs : Option (List n)) (hcs : ∀ l, cs = some l → l.Nodup) {T : Matrix (CompIdx cs) (CompIdx cs) ℂ}
    (hT : T ∈ Matrix.unitaryGroup (CompIdx cs) ℂ) (X : Sup n) : |entFidSup cs T X| ≤ ‖X‖ := by
  have key : ∀ z : ℂ, ‖z‖ ≤ dim cs * dim cs * ‖X‖ → |z.re / dim cs / dim cs| ≤ ‖X‖ := by
    intro z hz
    have hd := dim_pos cs
    rw [abs_div, abs_div, abs_of_nonneg hd]
    rcases hd.eq_or_lt with h0 | h0
    · rw [← h0]
      simp
    · rw [div_div, div_le_iff₀ (by positivity)]
      exact (Complex.abs_re_le_norm z).trans (hz.trans (le_of_eq (by ring)))
  have hT' : Tᴴ ∈ Matrix.unitaryGroup (CompIdx cs) ℂ := by
    rw [← Matrix.star_eq_conjTranspose]
    exact Unitary.star_mem hT
  have hb : ∀ {k : Type} [Fintype k] [DecidableEq k] (A : Matrix k k ℂ) (Y : Matrix (k × k) (k × k) ℂ),
      A ∈ Matrix.unitaryGroup k ℂ → ‖((conjM A ⊗ₖ A) * Y).trace‖ ≤ Fintype.card k * Fintype.card k * ‖Y‖ := by
    intro k _ _ A Y hA
    refine (trace_norm_le _).trans ?_
    rw [CStarRing.norm_mem_unitary_mul _ (unitarySup_unitary hA), Fintype.card_prod]
    push_cast
    rfl
  cases cs with
  | none => exact key _ (hb (k := n) _ X hT')
  | some l =>
    refine key _ ?_
    rw [trace_fillTarget_sup l (hcs l rfl)]
    refine (hb (k := Fin l.length) _ _ hT').trans (mul_le_mul_of_nonneg_left ?_ (by positivity))
    refine norm_submatrix_le _ ?_ X
    exact (List.nodup_iff_injective_get.mp (hcs l rfl)).prodMap (List.nodup_iff_injective_get.mp (hcs l rfl))

theorem entFidSup_sub (cs : Option (List n)) (T : Matrix (CompIdx cs) (CompIdx cs) ℂ) (X Y : Sup n) :
    entFidSup cs T (X - Y) = entFidSup cs T X - entFidSup cs T Y := by
  cases cs <;> simp [entFidSup, Matrix.mul_sub, sub_div]

/-! ## The run of the Lindblad solver -/

omit [Fintype n] in
theorem supGen_skew {G : Matrix n n ℂ} (h : Gᴴ = -G) : (supGen G 0)ᴴ = -supGen G 0 := by
  unfold supGen
  have hc : (conjM G)ᴴ = -conjM G := by
    have : (conjM G)ᴴ = conjM Gᴴ := by
      ext i j
      simp [conjM]
    rw [this, h]
    ext i j
    simp [conjM]
  rw [add_zero, Matrix.conjTranspose_add, Matrix.conjTranspose_kronecker, Matrix.conjTranspose_kronecker, h, hc,
    Matrix.conjTranspose_one, neg_add]
  congr 1 <;> ext i j <;> simp

/-- The final super operator of a Lindblad solver. -/
theorem lindblad_final (p : LPar n) (Ls : List (Matrix n n ℂ)) (times : List ℝ) (u x : Pulse)
    (hL : p.Lindblads Ls times u x) (hne : times ≠ []) (hd : p.drift.length = times.length)
    (hm : p.method = .frechet) (hE : p.L.ExpmOk) (hi : p.init = 1) :
    ∃ f, p.fwd times u x = .ok f ∧ f.getLast? = some (((List.range times.length).map fun t =>
      NormedSpace.exp (((times.getD t 0 : ℝ) : ℂ) • (supGen ((schroedGens p.drift p.ctrl u).getD t 0) 0 +
        wDiss ((weightsAt p Ls u x t).zip Ls)))).foldl (fun F P => P * F) 1) := by
  have hgl : (schroedGens p.drift p.ctrl u).length = times.length := by rw [schroedGens_length, hd]
  have hgne : schroedGens p.drift p.ctrl u ≠ [] := by
    intro h
    rw [h] at hgl
    exact hne (List.length_eq_zero_iff.mp hgl.symm)
  have hg : p.gens times u x = .ok (List.zipWith supGen (schroedGens p.drift p.ctrl u)
      ((List.range times.length).map fun t => wDiss ((weightsAt p Ls u x t).zip Ls))) := by
    unfold LPar.gens lindGens
    rw [calcDiss_lindblad p Ls times u x hL]
    simp only [bind, Except.bind]
    rw [if_neg hgne, if_neg (by simp [hgl])]
  obtain ⟨ps, f, -, h2, h3, h4⟩ := p.run_ok (by rw [hm]; simp) times u x _ hg (by simp [hgl])
  have hlp : ps.length = times.length := by rw [h3]; simp
  refine ⟨f, h2, ?_⟩
  have h5 := isForward_unique h4 ps.length le_rfl
  rw [List.take_length, hi] at h5
  rw [List.getLast?_eq_getElem?, h4.1, Nat.add_sub_cancel, h5, h3]
  congr 2
  refine List.map_congr_left fun t ht => ?_
  have ht' := List.mem_range.mp ht
  rw [propOf_base p hm hE]
  congr 2
  rw [List.getD_eq_getElem _ _ (by simp [hgl, ht']), List.getD_eq_getElem _ _ (by rw [hgl]; exact ht')]
  simp [supGen]

/-! ## The property -/

/-- **C124** The infidelity of a pulse computed with Lindblad operators differs from the infidelity of the same pulse in the closed
system by at most `exp s - 1`, where `s` is the accumulated strength of the dissipation. -/
theorem c124_dissipation (p : LPar n) (q : SPar n n) (τ : List ℝ) (y u x : Pulse) (Ls : List (Matrix n n ℂ))
    (hdr : p.drift = q.drift) (hct : p.ctrl = q.ctrl) (hv : q.Valid τ) (hst : Stable q.cfg)
    (hu : ampsOf q.cfg τ y = some u) (hne : q.xTimes τ ≠ []) (hL : p.Lindblads Ls (q.xTimes τ) u x)
    (hdH : ∀ H ∈ q.drift, H.IsHermitian) (hcH : ∀ H ∈ q.ctrl, H.IsHermitian)
    (hm : p.method = .frechet) (hE : p.L.ExpmOk) (hm' : q.method = .frechet) (hE' : q.L.ExpmOk)
    (hi : p.init = 1) (hi' : q.init = 1) (cl : Closest) (cs : Option (List n)) (hcs : ∀ l, cs = some l → l.Nodup)
    (T : Matrix (CompIdx cs) (CompIdx cs) ℂ) (hT : T ∈ Matrix.unitaryGroup (CompIdx cs) ℂ) :
    ∃ c c₀ : ℝ, lindCosts cs T p (q.xTimes τ) u x = .ok c ∧
      (costOn (opCosts cl cs T false) q.cfg (fresh q.cfg τ y)).1 = .ok c₀ ∧
      |c - c₀| ≤ Real.exp (dissStrength (q.xTimes τ) (weightsAt p Ls u x) Ls) - 1 := by
  obtain ⟨hlen, hrow⟩ := ampsOf_shape q.cfg τ y u hu
  have hlen' : u.length = (q.xTimes τ).length := hlen
  have hrow' : ∀ row ∈ u, row.length = q.ctrl.length := hrow
  have hd : p.drift.length = (q.xTimes τ).length := by rw [hdr, hv.2.1]
  -- the same solver without dissipation
  set p₀ : LPar n := { p with diss := ⟨none, some [0], none, none, none, none⟩ } with hp₀
  have hL₀ : p₀.Lindblads [0] (q.xTimes τ) u x := ⟨rfl, rfl, by simp, fun f hf => by simp [hp₀] at hf⟩
  have hw₀ : ∀ t, wDiss ((weightsAt p₀ [0] u x t).zip [(0 : Matrix n n ℂ)]) = 0 := by
    intro t
    simp [weightsAt, hp₀, wDiss, dissOf]
  obtain ⟨-, f₀, -, a1, -, -, a2⟩ := c40_coherent p₀ q τ y u x hdr hct hv hu hne (by
    rw [calcDiss_lindblad p₀ [0] _ u x hL₀]
    congr 1
    refine List.eq_replicate_iff.mpr ⟨by simp, fun D hD => ?_⟩
    obtain ⟨t, -, rfl⟩ := List.mem_map.mp hD
    exact hw₀ t) hm hE hm' hE' hi hi'
  obtain ⟨f, b1, b2⟩ := lindblad_final p Ls (q.xTimes τ) u x hL hne hd hm hE hi
  obtain ⟨f₁, c1, c2⟩ := lindblad_final p₀ [0] (q.xTimes τ) u x hL₀ hne hd hm hE hi
  rw [a2] at c1
  cases c1
  simp only [hw₀, add_zero] at c2
  rw [List.getLast?_map] at c2
  obtain ⟨U, d1, d2⟩ := Option.map_eq_some_iff.mp c2
  set F := ((List.range (q.xTimes τ).length).map fun t =>
      NormedSpace.exp ((((q.xTimes τ).getD t 0 : ℝ) : ℂ) • (supGen ((schroedGens p.drift p.ctrl u).getD t 0) 0 +
        wDiss ((weightsAt p Ls u x t).zip Ls)))).foldl (fun F P => P * F) 1 with hF
  refine ⟨1 - entFidSup cs T F, 1 - entFid cl cs T U false, ?_, Sim.costOn_last cl cs T false _ _ a1 d1, ?_⟩
  · unfold lindCosts opCostsSup
    rw [b1]
    simp only [bind, Except.bind]
    rw [last_ok b2]
    rfl
  rw [← c46_super_operator cl cs hcs, show 1 - entFidSup cs T F - (1 - entFidSup cs T (unitarySup U)) =
    entFidSup cs T (unitarySup U) - entFidSup cs T F by ring, abs_sub_comm, ← entFidSup_sub]
  refine (entFidSup_le cs hcs hT _).trans ?_
  rw [d2, hF]
  have hskew : ∀ t ∈ List.range (q.xTimes τ).length,
      ((((q.xTimes τ).getD t 0 : ℝ) : ℂ) • supGen ((schroedGens p₀.drift p₀.ctrl u).getD t 0) 0)ᴴ =
        -((((q.xTimes τ).getD t 0 : ℝ) : ℂ) • supGen ((schroedGens p₀.drift p₀.ctrl u).getD t 0) 0) := by
    intro t ht
    have ht' := List.mem_range.mp ht
    have h5 : t < p.drift.length := by omega
    have h6 : t < u.length := by omega
    have hG := schroedGens_getElem p₀.drift p₀.ctrl u t _ _ (List.getElem?_eq_getElem h5)
        (List.getElem?_eq_getElem h6) (by rw [show p₀.ctrl = q.ctrl from hct]; exact hrow' _ (List.getElem_mem h6))
    rw [List.getD_eq_getElem?_getD (l := schroedGens _ _ _), hG, Option.getD_some, Matrix.conjTranspose_smul,
      supGen_skew (skew_of_hermitian (hamiltonian_isHermitian _ (hdH _ (hdr ▸ List.getElem_mem h5))
        (by rw [show p₀.ctrl = q.ctrl from hct]; exact hcH)))]
    simp
  have h := foldl_perturbed (fun t => NormedSpace.exp ((((q.xTimes τ).getD t 0 : ℝ) : ℂ) •
      (supGen ((schroedGens p.drift p.ctrl u).getD t 0) 0 + wDiss ((weightsAt p Ls u x t).zip Ls))))
    (fun t => NormedSpace.exp ((((q.xTimes τ).getD t 0 : ℝ) : ℂ) • supGen ((schroedGens p₀.drift p₀.ctrl u).getD t 0) 0))
    (fun t => |(q.xTimes τ).getD t 0| * (((weightsAt p Ls u x t).zip Ls).map fun q => |q.1| * (2 * ‖q.2‖ ^ 2)).sum)
    (List.range (q.xTimes τ).length) 1 1 0 (fun t ht => ⟨?_, ?_⟩) norm_one_le (by simp)
  · rw [zero_add] at h
    exact h
  · rw [smul_add]
    refine (exp_perturbed (hskew t ht)).trans (sub_le_sub_right (Real.exp_le_exp.mpr ?_) _)
    rw [norm_smul, Complex.norm_real, Real.norm_eq_abs]
    exact mul_le_mul_of_nonneg_left (norm_wDiss_le _) (abs_nonneg _)
  · have hu := exp_skew_unitary (hskew t ht)
    rw [← mul_one (NormedSpace.exp _), CStarRing.norm_mem_unitary_mul _ hu]
    exact norm_one_le

/-- **C124** Weak dissipation changes the infidelity at most by twice its accumulated strength. -/
theorem c124_weak (p : LPar n) (q : SPar n n) (τ : List ℝ) (y u x : Pulse) (Ls : List (Matrix n n ℂ))
    (hdr : p.drift = q.drift) (hct : p.ctrl = q.ctrl) (hv : q.Valid τ) (hst : Stable q.cfg)
    (hu : ampsOf q.cfg τ y = some u) (hne : q.xTimes τ ≠ []) (hL : p.Lindblads Ls (q.xTimes τ) u x)
    (hdH : ∀ H ∈ q.drift, H.IsHermitian) (hcH : ∀ H ∈ q.ctrl, H.IsHermitian)
    (hm : p.method = .frechet) (hE : p.L.ExpmOk) (hm' : q.method = .frechet) (hE' : q.L.ExpmOk)
    (hi : p.init = 1) (hi' : q.init = 1) (cl : Closest) (cs : Option (List n)) (hcs : ∀ l, cs = some l → l.Nodup)
    (T : Matrix (CompIdx cs) (CompIdx cs) ℂ) (hT : T ∈ Matrix.unitaryGroup (CompIdx cs) ℂ)
    (hs : dissStrength (q.xTimes τ) (weightsAt p Ls u x) Ls ≤ 1) :
    ∃ c c₀ : ℝ, lindCosts cs T p (q.xTimes τ) u x = .ok c ∧
      (costOn (opCosts cl cs T false) q.cfg (fresh q.cfg τ y)).1 = .ok c₀ ∧
      |c - c₀| ≤ 2 * dissStrength (q.xTimes τ) (weightsAt p Ls u x) Ls := by
  obtain ⟨c, c₀, h1, h2, h3⟩ := c124_dissipation p q τ y u x Ls hdr hct hv hst hu hne hL hdH hcH hm hE hm' hE' hi hi' cl cs hcs T hT
  have h0 : 0 ≤ dissStrength (q.xTimes τ) (weightsAt p Ls u x) Ls := by
    refine List.sum_nonneg fun a ha => ?_
    obtain ⟨t, -, rfl⟩ := List.mem_map.mp ha
    refine mul_nonneg (abs_nonneg _) (List.sum_nonneg fun b hb => ?_)
    obtain ⟨r, -, rfl⟩ := List.mem_map.mp hb
    positivity
  refine ⟨c, c₀, h1, h2, h3.trans ((le_abs_self _).trans ?_)⟩
  refine (Real.abs_exp_sub_one_le (by rwa [abs_of_nonneg h0])).trans ?_
  rw [abs_of_nonneg h0]

/-! ## Concrete cases -/

namespace Ex124

/-- An idle qubit. -/
noncomputable def idle (L : Lapack (Fin 2)) : SPar (Fin 2) (Fin 2) :=
  ⟨L, .frechet, true, true, .none, 1, [0], [0], idTf, id, idAmp⟩

theorem sigma_norm : ‖(!![1, 0; 0, -1] : Matrix (Fin 2) (Fin 2) ℂ)‖ = 1 := by
  have h : (!![1, 0; 0, -1] : Matrix (Fin 2) (Fin 2) ℂ) = Matrix.diagonal ![1, -1] := by
    ext i j; fin_cases i <;> fin_cases j <;> simp
  rw [h, Matrix.l2_opNorm_diagonal]
  refine le_antisymm ((pi_norm_le_iff_of_nonneg zero_le_one).mpr fun i => ?_) ?_
  · fin_cases i <;> simp
  · simpa using norm_le_pi_norm (![1, -1] : Fin 2 → ℂ) 0

theorem dephase_lindblads (L : Lapack (Fin 2 × Fin 2)) (w : ℝ) :
    (dephasePar L w).Lindblads [!![1, 0; 0, -1]] [1] [[0]] [] :=
  ⟨rfl, rfl, by simp, fun f hf => by cases hf; exact ⟨rfl, fun row hrow => by rw [List.mem_singleton.mp hrow]; rfl⟩⟩

theorem dephase_strength (L : Lapack (Fin 2 × Fin 2)) (w : ℝ) (hw : 0 ≤ w) :
    dissStrength [1] (weightsAt (dephasePar L w) [!![1, 0; 0, -1]] [[0]] []) [!![1, 0; 0, -1]] = 2 * w := by
  simp [dissStrength, weightsAt, dephasePar, sigma_norm, abs_of_nonneg hw]
  ring

theorem dephase_diss (w : ℝ) : wDiss [(w, (!![1, 0; 0, -1] : Matrix (Fin 2) (Fin 2) ℂ))] =
    Matrix.diagonal fun q : Fin 2 × Fin 2 => if q.1 = q.2 then (0 : ℂ) else ((-(2 * w) : ℝ) : ℂ) := by
  ext ⟨i, j⟩ ⟨k, l⟩
  fin_cases i <;> fin_cases j <;> fin_cases k <;> fin_cases l <;>
    simp [wDiss, dissOf, conjM, Matrix.diagonal, Matrix.kroneckerMap_apply, Matrix.mul_apply] <;> norm_num <;> ring_nf

/-- The infidelity of a dephasing idle qubit. -/
theorem dephase_value (L : Lapack (Fin 2 × Fin 2)) (hE : L.ExpmOk) (w : ℝ) :
    lindCosts none (1 : Matrix (Fin 2) (Fin 2) ℂ) (dephasePar L w) [1] [[0]] [] = .ok ((1 - Real.exp (-(2 * w))) / 2) := by
  obtain ⟨f, h1, h2⟩ := lindblad_final (dephasePar L w) [!![1, 0; 0, -1]] [1] [[0]] [] (dephase_lindblads L w) (by simp) rfl rfl hE rfl
  unfold lindCosts opCostsSup
  rw [h1]
  simp only [bind, Except.bind]
  rw [last_ok h2]
  simp only [pure, Except.pure]
  congr 1
  have e : (schroedGens (dephasePar L w).drift (dephasePar L w).ctrl [[0]]).getD 0 0 = 0 := by
    simp [dephasePar, schroedGens, addCtrls, column, addCtrl]
  have e2 : (weightsAt (dephasePar L w) [!![1, 0; 0, -1]] [[0]] [] 0).zip [(!![1, 0; 0, -1] : Matrix (Fin 2) (Fin 2) ℂ)] =
      [(w, !![1, 0; 0, -1])] := by
    simp [weightsAt, dephasePar]
  have e3 : supGen (0 : Matrix (Fin 2) (Fin 2) ℂ) 0 = 0 := by
    simp [supGen, conjM]
  simp only [List.length_singleton, List.range_one, List.map_singleton, List.foldl_cons, List.foldl_nil, e, e2, e3,
    List.getD_cons_zero, Complex.ofReal_one, one_smul, zero_add, Matrix.mul_one, dephase_diss, Matrix.exp_diagonal]
  show 1 - (unitarySup (1 : Matrix (Fin 2) (Fin 2) ℂ)ᴴ * _).trace.re / _ / _ = _
  have e4 : unitarySup (1 : Matrix (Fin 2) (Fin 2) ℂ)ᴴ = 1 := by
    unfold unitarySup
    rw [Matrix.conjTranspose_one, show conjM (1 : Matrix (Fin 2) (Fin 2) ℂ) = 1 by rw [conjM_eq]; simp, Matrix.one_kronecker_one]
  have e5 : dim (n := Fin 2) none = 2 := by
    show ((Fintype.card (Fin 2) : ℕ) : ℝ) = 2
    simp
  have e6 : ∀ r : ℝ, (NormedSpace.exp ((r : ℝ) : ℂ)).re = Real.exp r := by
    intro r
    rw [← Complex.exp_eq_exp_ℂ, Complex.exp_ofReal_re]
  rw [e4, Matrix.one_mul, e5, Matrix.trace_diagonal, Fintype.sum_prod_type]
  simp only [Fin.sum_univ_two, Pi.coe_exp]
  simp only [if_true, zero_ne_one, one_ne_zero, if_false, Complex.add_re, e6, NormedSpace.exp_zero, Complex.one_re]
  ring

end Ex124

/-- **C124** The bound has the right order: dephasing of strength `s` makes the infidelity of an idle qubit `(1 - exp(-s)) / 2`,
while it vanishes in the closed system. -/
theorem c124_attained (s : ℝ) (hs : 0 ≤ s) (L : Lapack (Fin 2)) (hE : L.ExpmOk) (L' : Lapack (Fin 2 × Fin 2)) (hE' : L'.ExpmOk)
    (cl : Closest) :
    ∃ (p : LPar (Fin 2)) (Ls : List (Matrix (Fin 2) (Fin 2) ℂ)), p.Lindblads Ls [1] [[0]] [] ∧
      p.drift = (Ex124.idle L).drift ∧ p.ctrl = (Ex124.idle L).ctrl ∧ dissStrength [1] (weightsAt p Ls [[0]] []) Ls = s ∧
      (costOn (opCosts cl none (1 : Matrix (Fin 2) (Fin 2) ℂ) false) (Ex124.idle L).cfg (fresh (Ex124.idle L).cfg [1] [[0]])).1 =
        .ok 0 ∧
      lindCosts none (1 : Matrix (Fin 2) (Fin 2) ℂ) p [1] [[0]] [] = .ok ((1 - Real.exp (-s)) / 2) := by
  have hv : ∀ w : ℝ, 0 ≤ w → _ := fun w hw => c124_dissipation (dephasePar L' w) (Ex124.idle L) [1] [[0]] [[0]] []
    [!![1, 0; 0, -1]] rfl rfl ⟨by simp [Ex124.idle], rfl, by simp [Ex124.idle]⟩ (Or.inl ⟨rfl, rfl⟩)
    (ampsOf_simple L .frechet true .none 1 _ _ [1] [[0]] (by simp) rfl (by simp [Ex124.idle])) (by simp [Ex124.idle])
    (Ex124.dephase_lindblads L' w) (by simp [Ex124.idle]) (by simp [Ex124.idle]) rfl hE' rfl hE rfl rfl cl none (by simp)
    (1 : Matrix (Fin 2) (Fin 2) ℂ) (one_mem _)
  refine ⟨dephasePar L' (s / 2), [!![1, 0; 0, -1]], Ex124.dephase_lindblads L' _, rfl, rfl, ?_, ?_, ?_⟩
  · rw [Ex124.dephase_strength L' _ (by linarith)]
    ring
  · obtain ⟨c, c₀, h1, h2, h3⟩ := hv 0 le_rfl
    have h1' := (Ex124.dephase_value L' hE' 0).symm.trans h1
    have h4 : dissStrength [1] (weightsAt (dephasePar L' 0) [!![1, 0; 0, -1]] [[0]] []) [!![1, 0; 0, -1]] = 0 := by
      rw [Ex124.dephase_strength L' _ le_rfl, mul_zero]
    have h5 : |c - c₀| ≤ 0 := by
      refine h3.trans (le_of_eq ?_)
      rw [show (Ex124.idle L).xTimes [1] = [1] from rfl, h4]
      simp
    have h6 : c = 0 := by
      have := Except.ok.inj h1'
      simp at this
      exact this.symm
    have h7 := abs_eq_zero.mp (le_antisymm h5 (abs_nonneg _))
    rw [h2]
    congr 1
    linarith
  · rw [Ex124.dephase_value L' hE']
    ring_nf

/-- `c124_dissipation` and `c124_weak` apply: a driven qubit that decays. -/
example : ∃ (L : Lapack (Fin 2)) (L' : Lapack (Fin 2 × Fin 2)) (c c₀ : ℝ),
    let q := qubitPar L .none true
    let p : LPar (Fin 2) := ⟨L', .frechet, false, 1, q.drift, q.ctrl, ⟨none, some [!![0, 1; 0, 0]], none, none, none, none⟩⟩
    lindCosts none (1 : Matrix (Fin 2) (Fin 2) ℂ) p [1, 2, 3] [[1, 2], [3, 4], [5, 6]] [] = .ok c ∧
    (costOn (opCosts (fun _ => id) none (1 : Matrix (Fin 2) (Fin 2) ℂ) false) q.cfg
      (fresh q.cfg [1, 2, 3] [[1, 2], [3, 4], [5, 6]])).1 = .ok c₀ ∧
    |c - c₀| ≤ Real.exp (12 * ‖(!![0, 1; 0, 0] : Matrix (Fin 2) (Fin 2) ℂ)‖ ^ 2) - 1 := by
  obtain ⟨L, -, -, hE, -⟩ := lapack_exists (Fin 2)
  obtain ⟨L', -, -, hE', -⟩ := lapack_exists (Fin 2 × Fin 2)
  obtain ⟨c, c₀, h1, h2, h3⟩ := c124_dissipation
    (⟨L', .frechet, false, 1, (qubitPar L .none true).drift, (qubitPar L .none true).ctrl,
      ⟨none, some [!![0, 1; 0, 0]], none, none, none, none⟩⟩ : LPar (Fin 2)) (qubitPar L .none true) [1, 2, 3]
    [[1, 2], [3, 4], [5, 6]] [[1, 2], [3, 4], [5, 6]] [] [!![0, 1; 0, 0]] rfl rfl (qubitPar_valid L _ _) (Or.inl ⟨rfl, rfl⟩)
    (qubitPar_amps L _ _ _ rfl (by simp)) (by simp [qubitPar]) ⟨rfl, rfl, by simp, fun f hf => by simp at hf⟩
    (Ex116.herm L).1 (Ex116.herm L).2.1 rfl hE' rfl hE rfl rfl
    (fun _ => id) none (by simp) (1 : Matrix (Fin 2) (Fin 2) ℂ) (one_mem _)
  refine ⟨L, L', c, c₀, h1, h2, h3.trans (le_of_eq ?_)⟩
  congr 2
  simp [dissStrength, weightsAt, qubitPar, List.range_succ]
  ring

end
end Verif.Cost
