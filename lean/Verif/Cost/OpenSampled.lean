import Verif.Cost.Master
import Verif.Cost.Dissipation

/-!
# C139: sampled controls and rates of an open system

The Lindblad solver uses one Hamiltonian and one set of rates for each time step.  Here its states are compared with those of a master
equation with Hamiltonians and rates which vary continuously.
-/

namespace Verif.Cost
open Verif Verif.Operator Verif.Solver Matrix
open scoped Kronecker ComplexOrder

section
open scoped Matrix.Norms.L2Operator
variable {n : Type} [Fintype n] [DecidableEq n]

/-! ## Specification -/

/-- The states `ρ` follow the master equation with Hamiltonian `H` and rates `w` for the time `S`. -/
structure OpenEvolves (H : ℝ → Matrix n n ℂ) (w : ℝ → List ℝ) (Ls : List (Matrix n n ℂ)) (S : ℝ) (ρ : ℝ → Matrix n n ℂ) : Prop where
  state : ∀ s ∈ Set.Icc 0 S, (ρ s).PosSemidef ∧ (ρ s).trace = 1
  cont : ContinuousOn ρ (Set.Icc 0 S)
  deriv : ∀ s ∈ Set.Ico 0 S, HasDerivWithinAt ρ (master (H s) ((w s).zip Ls) (ρ s)) (Set.Ici s) s

/-- How much two Hamiltonians and two sets of rates differ. -/
noncomputable def mismatch (Ls : List (Matrix n n ℂ)) (H K : Matrix n n ℂ) (w v : List ℝ) : ℝ :=
  2 * ‖H - K‖ + (((w.zip v).zip Ls).map fun q => |q.1.1 - q.1.2| * (2 * ‖q.2‖ ^ 2)).sum

/-! ## Lemmas -/

/-- `A ↦ 1 ⊗ A` as homomorphism of star algebras. -/
def copies (k n : Type) [Fintype k] [DecidableEq k] [Fintype n] [DecidableEq n] : Matrix n n ℂ →⋆ₐ[ℂ] Matrix (k × n) (k × n) ℂ where
  toFun A := (1 : Matrix k k ℂ) ⊗ₖ A
  map_one' := Matrix.one_kronecker_one
  map_mul' A B := by rw [← Matrix.mul_kronecker_mul, Matrix.one_mul]
  map_zero' := Matrix.kronecker_zero _
  map_add' A B := Matrix.kronecker_add _ _ _
  commutes' r := by
    rw [Algebra.algebraMap_eq_smul_one, Algebra.algebraMap_eq_smul_one, Matrix.kronecker_smul, Matrix.one_kronecker_one]
  map_star' A := by
    rw [Matrix.star_eq_conjTranspose, Matrix.star_eq_conjTranspose, Matrix.conjTranspose_kronecker, Matrix.conjTranspose_one]

/-- The Kraus operators below one another. -/
def stack {k : Nat} (K : Fin k → Matrix n n ℂ) : Matrix (Fin k × n) n ℂ := Matrix.of fun q j => K q.1 q.2 j

omit [DecidableEq n] in
theorem stack_mul {k : Nat} (K : Fin k → Matrix n n ℂ) : (stack K)ᴴ * stack K = ∑ r, (K r)ᴴ * K r := by
  ext i j
  rw [Matrix.mul_apply, Fintype.sum_prod_type, Matrix.sum_apply]
  refine Finset.sum_congr rfl fun r _ => ?_
  rw [Matrix.mul_apply]
  rfl

theorem stack_copies {k : Nat} (K : Fin k → Matrix n n ℂ) (A : Matrix n n ℂ) :
    (stack K)ᴴ * copies (Fin k) n A * stack K = ∑ r, (K r)ᴴ * A * K r := by
  have h : copies (Fin k) n A * stack K = stack fun r => A * K r := by
    ext ⟨r, i⟩ j
    rw [Matrix.mul_apply, Fintype.sum_prod_type, Finset.sum_eq_single r]
    · show (∑ x, ((1 : Matrix (Fin k) (Fin k) ℂ) ⊗ₖ A) (r, i) (r, x) * K r x j) = (A * K r) i j
      simp [Matrix.kroneckerMap_apply, Matrix.mul_apply]
    · intro r' _ hr
      refine Finset.sum_eq_zero fun x _ => ?_
      show ((1 : Matrix (Fin k) (Fin k) ℂ) ⊗ₖ A) (r, i) (r', x) * _ = 0
      simp [Matrix.kroneckerMap_apply, Matrix.one_apply_ne (Ne.symm hr)]
    · simp
  rw [Matrix.mul_assoc, h]
  ext i j
  rw [Matrix.mul_apply, Fintype.sum_prod_type, Matrix.sum_apply]
  refine Finset.sum_congr rfl fun r _ => ?_
  rw [Matrix.mul_assoc, Matrix.mul_apply]
  rfl

theorem kraus_norm {k : Nat} {K : Fin k → Matrix n n ℂ} (hK : ∑ r, (K r)ᴴ * K r = 1) (A : Matrix n n ℂ) :
    ‖∑ r, (K r)ᴴ * A * K r‖ ≤ ‖A‖ := by
  have h1 : ‖stack K‖ ≤ 1 := by
    have := Matrix.l2_opNorm_conjTranspose_mul_self (stack K)
    rw [stack_mul, hK] at this
    nlinarith [norm_nonneg (stack K), norm_one_le (k := n)]
  have h2 : ‖copies (Fin k) n A‖ ≤ ‖A‖ := NonUnitalStarAlgHom.norm_apply_le (copies (Fin k) n) A
  rw [← stack_copies]
  have h3 : ‖(stack K)ᴴ‖ ≤ 1 := by rw [Matrix.l2_opNorm_conjTranspose]; exact h1
  calc ‖(stack K)ᴴ * copies (Fin k) n A * stack K‖ ≤ ‖(stack K)ᴴ * copies (Fin k) n A‖ * ‖stack K‖ := Matrix.l2_opNorm_mul _ _
    _ ≤ ‖(stack K)ᴴ * copies (Fin k) n A‖ * 1 := mul_le_mul_of_nonneg_left h1 (norm_nonneg _)
    _ ≤ ‖(stack K)ᴴ‖ * ‖copies (Fin k) n A‖ * 1 := by
      rw [mul_one, mul_one]
      exact Matrix.l2_opNorm_mul _ _
    _ ≤ 1 * ‖A‖ * 1 := by
      rw [mul_one, mul_one]
      exact mul_le_mul h3 h2 (norm_nonneg _) zero_le_one
    _ = ‖A‖ := by ring

/-- Observables can be evolved instead of states, and their norm does not increase. -/
theorem dual_observable {M : Sup n} (hc : CompletelyPositive M) (hp : Physical M) (A : Matrix n n ℂ) :
    ∃ B : Matrix n n ℂ, ‖B‖ ≤ ‖A‖ ∧ ∀ X : Matrix n n ℂ, (A * unvec (M *ᵥ vec X)).trace = (B * X).trace := by
  obtain ⟨k, K, rfl⟩ := hc.kraus
  refine ⟨_, kraus_norm (kraus_complete K hp) A, fun X => ?_⟩
  have e : (∑ r, unitarySup (K r)) *ᵥ vec X = vec (∑ r, K r * X * (K r)ᴴ) := by
    rw [Matrix.sum_mulVec]
    simp only [unitarySup_mulVec]
    ext q
    simp [vec, Matrix.sum_apply]
  rw [e, show unvec (vec (∑ r, K r * X * (K r)ᴴ)) = ∑ r, K r * X * (K r)ᴴ from rfl, Matrix.mul_sum, Matrix.sum_mul, Matrix.trace_sum,
    Matrix.trace_sum]
  refine Finset.sum_congr rfl fun r _ => ?_
  rw [← Matrix.mul_assoc, ← Matrix.mul_assoc, Matrix.trace_mul_comm, ← Matrix.mul_assoc, ← Matrix.mul_assoc]

theorem form_le (X : Matrix n n ℂ) (v : n → ℂ) : ‖star v ⬝ᵥ (X *ᵥ v)‖ ≤ ‖X‖ * ∑ i, ‖v i‖ ^ 2 := by
  have h1 := Matrix.l2_opNorm_mulVec X (WithLp.toLp 2 v)
  have h2 := norm_inner_le_norm (𝕜 := ℂ) (WithLp.toLp 2 v : EuclideanSpace ℂ n) (WithLp.toLp 2 (X *ᵥ v))
  have h3 : ‖(WithLp.toLp 2 v : EuclideanSpace ℂ n)‖ ^ 2 = ∑ i, ‖v i‖ ^ 2 := EuclideanSpace.norm_sq_eq _
  rw [EuclideanSpace.inner_toLp_toLp, dotProduct_comm] at h2
  rw [← h3]
  refine h2.trans ?_
  have := mul_le_mul_of_nonneg_left h1 (norm_nonneg (WithLp.toLp 2 v : EuclideanSpace ℂ n))
  calc _ ≤ _ := this
    _ = _ := by ring

/-- Expectation values are bounded by the norm of the observable. -/
theorem trace_state_le (X : Matrix n n ℂ) {ρ : Matrix n n ℂ} (hρ : ρ.PosSemidef) (h1 : ρ.trace = 1) : ‖(X * ρ).trace‖ ≤ ‖X‖ := by
  obtain ⟨k, v, rfl⟩ := Matrix.posSemidef_iff_eq_sum_vecMulVec.mp hρ
  have e : ∀ (Y : Matrix n n ℂ) r, (Y * Matrix.vecMulVec (v r) (star (v r))).trace = star (v r) ⬝ᵥ (Y *ᵥ v r) := by
    intro Y r
    rw [Matrix.mul_vecMulVec, Matrix.trace_vecMulVec, dotProduct_comm]
  have h2 : (∑ r, ∑ i, ‖v r i‖ ^ 2 : ℝ) = 1 := by
    have h3 : ((∑ r, ∑ i, ‖v r i‖ ^ 2 : ℝ) : ℂ) = 1 := by
      rw [← h1, Matrix.trace_sum, Complex.ofReal_sum]
      refine Finset.sum_congr rfl fun r _ => ?_
      rw [sum_sq_dot, Matrix.trace_vecMulVec, dotProduct_comm]
    exact_mod_cast h3
  rw [Matrix.mul_sum, Matrix.trace_sum, ← mul_one ‖X‖, ← h2, Finset.mul_sum]
  refine (norm_sum_le _ _).trans (Finset.sum_le_sum fun r _ => ?_)
  rw [e]
  exact form_le X (v r)

theorem mismatch_nonneg (Ls : List (Matrix n n ℂ)) (H K : Matrix n n ℂ) (w v : List ℝ) : 0 ≤ mismatch Ls H K w v := by
  unfold mismatch
  refine add_nonneg (by positivity) (List.sum_nonneg fun x hx => ?_)
  obtain ⟨q, -, rfl⟩ := List.mem_map.1 hx
  positivity

/-- The right hand sides of two master equations. -/
theorem trace_master_sub (B : Matrix n n ℂ) {ρ : Matrix n n ℂ} (hρ : ρ.PosSemidef) (h1 : ρ.trace = 1) (H K : Matrix n n ℂ)
    (Ls : List (Matrix n n ℂ)) (w v : List ℝ) (hw : w.length = Ls.length) (hv : v.length = Ls.length) :
    ‖(B * (master H (w.zip Ls) ρ - master K (v.zip Ls) ρ)).trace‖ ≤ ‖B‖ * mismatch Ls H K w v := by
  have hH : ‖(B * ((-Complex.I) • ((H - K) * ρ - ρ * (H - K)))).trace‖ ≤ ‖B‖ * (2 * ‖H - K‖) := by
    have e : (B * ((-Complex.I) • ((H - K) * ρ - ρ * (H - K)))).trace = (-Complex.I) * ((B * (H - K) - (H - K) * B) * ρ).trace := by
      generalize H - K = D
      rw [Matrix.mul_smul, Matrix.trace_smul, smul_eq_mul, Matrix.mul_sub, Matrix.sub_mul, Matrix.trace_sub, Matrix.trace_sub,
        ← Matrix.mul_assoc, ← Matrix.mul_assoc, Matrix.trace_mul_comm (B * ρ), ← Matrix.mul_assoc]
    rw [e, norm_mul, norm_neg, Complex.norm_I, one_mul]
    refine (trace_state_le _ hρ h1).trans ((norm_sub_le _ _).trans ?_)
    have h2 := Matrix.l2_opNorm_mul B (H - K)
    have h3 := Matrix.l2_opNorm_mul (H - K) B
    nlinarith
  have hD : ∀ L : Matrix n n ℂ, ‖(B * (L * ρ * Lᴴ - (1 / 2 : ℂ) • (Lᴴ * L * ρ + ρ * (Lᴴ * L)))).trace‖ ≤ ‖B‖ * (2 * ‖L‖ ^ 2) := by
    intro L
    have e : (B * (L * ρ * Lᴴ - (1 / 2 : ℂ) • (Lᴴ * L * ρ + ρ * (Lᴴ * L)))).trace =
        ((Lᴴ * B * L - (1 / 2 : ℂ) • (B * (Lᴴ * L) + (Lᴴ * L) * B)) * ρ).trace := by
      rw [Matrix.mul_sub, Matrix.sub_mul, Matrix.trace_sub, Matrix.trace_sub, Matrix.mul_smul, Matrix.smul_mul, Matrix.trace_smul,
        Matrix.trace_smul, Matrix.mul_add, Matrix.add_mul, Matrix.trace_add, Matrix.trace_add]
      congr 1
      · rw [← Matrix.mul_assoc, ← Matrix.mul_assoc, Matrix.trace_mul_comm, ← Matrix.mul_assoc, ← Matrix.mul_assoc]
      · congr 2
        · rw [Matrix.mul_assoc B]
        · rw [← Matrix.mul_assoc, Matrix.trace_mul_comm, ← Matrix.mul_assoc]
    rw [e]
    refine (trace_state_le _ hρ h1).trans ((norm_sub_le _ _).trans ?_)
    have hL : ‖Lᴴ * L‖ = ‖L‖ * ‖L‖ := Matrix.l2_opNorm_conjTranspose_mul_self L
    have h2 : ‖Lᴴ * B * L‖ ≤ ‖L‖ * ‖B‖ * ‖L‖ := by
      refine (Matrix.l2_opNorm_mul _ _).trans (mul_le_mul_of_nonneg_right ?_ (norm_nonneg _))
      refine (Matrix.l2_opNorm_mul _ _).trans (le_of_eq ?_)
      rw [Matrix.l2_opNorm_conjTranspose]
    have h3 := Matrix.l2_opNorm_mul B (Lᴴ * L)
    have h4 := Matrix.l2_opNorm_mul (Lᴴ * L) B
    have h5 := norm_add_le (B * (Lᴴ * L)) ((Lᴴ * L) * B)
    rw [norm_smul]
    have h6 : ‖(1 / 2 : ℂ)‖ = 1 / 2 := by norm_num
    rw [h6]
    rw [hL] at h3 h4
    nlinarith
  have hS : ‖(B * (((w.zip Ls).map fun p => (p.1 : ℂ) • (p.2 * ρ * p.2ᴴ - (1 / 2 : ℂ) • (p.2ᴴ * p.2 * ρ + ρ * (p.2ᴴ * p.2)))).sum -
      ((v.zip Ls).map fun p => (p.1 : ℂ) • (p.2 * ρ * p.2ᴴ - (1 / 2 : ℂ) • (p.2ᴴ * p.2 * ρ + ρ * (p.2ᴴ * p.2)))).sum)).trace‖ ≤
      ‖B‖ * (((w.zip v).zip Ls).map fun q => |q.1.1 - q.1.2| * (2 * ‖q.2‖ ^ 2)).sum := by
    clear hH
    induction Ls generalizing w v with
    | nil => simp
    | cons L Ls ih =>
      obtain ⟨a, w, rfl⟩ := List.exists_cons_of_length_eq_add_one hw
      obtain ⟨b, v, rfl⟩ := List.exists_cons_of_length_eq_add_one hv
      have := ih w v (by simpa using hw) (by simpa using hv)
      simp only [List.zip_cons_cons, List.map_cons, List.sum_cons]
      set D := L * ρ * Lᴴ - (1 / 2 : ℂ) • (Lᴴ * L * ρ + ρ * (Lᴴ * L)) with hDe
      have e : ∀ X Y : Matrix n n ℂ, (a : ℂ) • D + X - ((b : ℂ) • D + Y) = ((a - b : ℝ) : ℂ) • D + (X - Y) := by
        intro X Y
        rw [Complex.ofReal_sub, sub_smul]
        abel
      rw [e, Matrix.mul_add, Matrix.trace_add, Matrix.mul_smul, Matrix.trace_smul, mul_add]
      refine (norm_add_le _ _).trans (add_le_add ?_ this)
      rw [smul_eq_mul, norm_mul, Complex.norm_real, Real.norm_eq_abs]
      have := mul_le_mul_of_nonneg_left (hD L) (abs_nonneg (a - b))
      linarith
  have e : ∀ X Y : Matrix n n ℂ, (-Complex.I) • (H * ρ - ρ * H) + X - ((-Complex.I) • (K * ρ - ρ * K) + Y) =
      (-Complex.I) • ((H - K) * ρ - ρ * (H - K)) + (X - Y) := by
    intro X Y
    rw [Matrix.sub_mul, Matrix.mul_sub, smul_sub, smul_sub, smul_sub, smul_sub, smul_sub]
    abel
  unfold master mismatch
  rw [e, Matrix.mul_add, Matrix.trace_add, mul_add]
  exact (norm_add_le _ _).trans (add_le_add hH hS)

/-- A linear functional of vectorised matrices. -/
noncomputable def expectL (A : Matrix n n ℂ) : (n × n → ℂ) →L[ℝ] ℂ :=
  LinearMap.toContinuousLinearMap
    { toFun := fun v => (A * unvec v).trace
      map_add' := fun v w => by
        rw [← Matrix.trace_add, ← Matrix.mul_add]
        rfl
      map_smul' := fun r v => by
        rw [RingHom.id_apply, ← Matrix.trace_smul, ← Matrix.mul_smul]
        rfl }

/-- One time step. -/
theorem OpenEvolves.step {H : ℝ → Matrix n n ℂ} {w : ℝ → List ℝ} {Ls : List (Matrix n n ℂ)} {S : ℝ} {ρ : ℝ → Matrix n n ℂ}
    (h : OpenEvolves H w Ls S ρ) (hw : ∀ s ∈ Set.Ico 0 S, (w s).length = Ls.length) {a b ε : ℝ} (ha : 0 ≤ a) (hab : a ≤ b) (hb : b ≤ S)
    {K : Matrix n n ℂ} (hK : K.IsHermitian) {v : List ℝ} (hv : v.length = Ls.length) (hv0 : ∀ r ∈ v, 0 ≤ r) {G : Sup n}
    (hG : ∀ X, G *ᵥ vec X = vec (master K (v.zip Ls) X)) (hε : ∀ s ∈ Set.Ico a b, mismatch Ls (H s) K (w s) v ≤ ε) (A : Matrix n n ℂ) :
    ‖(A * ρ b).trace - (A * unvec (NormedSpace.exp (((b - a : ℝ) : ℂ) • G) *ᵥ vec (ρ a))).trace‖ ≤ ‖A‖ * (ε * (b - a)) := by
  have hzip : ∀ q ∈ v.zip Ls, 0 ≤ q.1 := fun q hq => hv0 _ (List.of_mem_zip hq).1
  have key := norm_image_sub_le_of_norm_deriv_right_le_segment (C := ‖A‖ * ε)
    (f := fun s => expectL A (NormedSpace.exp ((b - s) • G) *ᵥ vec (ρ s)))
    (f' := fun s => expectL A (NormedSpace.exp ((b - s) • G) *ᵥ (vec (master (H s) ((w s).zip Ls) (ρ s)) - G *ᵥ vec (ρ s)))) (a := a) (b := b)
    ((expectL A).continuous.comp_continuousOn
      (expBack_cont G b ((vecL n).continuous.comp_continuousOn (h.cont.mono (Set.Icc_subset_Icc ha hb)))))
    (fun s hs => by
      have hd := (vecL n).hasFDerivAt.comp_hasDerivWithinAt s (h.deriv s ⟨ha.trans hs.1, hs.2.trans_le hb⟩)
      exact (expectL A).hasFDerivAt.comp_hasDerivWithinAt s (expBack_mulVec G b s hd))
    (fun s hs => by
      have hs' : s ∈ Set.Ico 0 S := ⟨ha.trans hs.1, hs.2.trans_le hb⟩
      have h0 : 0 ≤ b - s := sub_nonneg.2 hs.2.le
      have hst := h.state s (Set.Ico_subset_Icc_self hs')
      obtain ⟨B, hB, hBX⟩ := dual_observable (cp_exp hK _ hzip hG (b - s) h0) (physical_exp hK _ hG (b - s)) A
      rw [hG]
      show ‖(A * unvec (NormedSpace.exp ((b - s) • G) *ᵥ (vec _ - vec _))).trace‖ ≤ _
      rw [← Complex.coe_smul, show vec (master (H s) ((w s).zip Ls) (ρ s)) - vec (master K (v.zip Ls) (ρ s)) =
        vec (master (H s) ((w s).zip Ls) (ρ s) - master K (v.zip Ls) (ρ s)) from rfl, hBX]
      refine (trace_master_sub B hst.1 hst.2 (H s) K Ls (w s) v (hw s hs') hv).trans ?_
      have h2 := hε s hs
      exact mul_le_mul hB h2 (mismatch_nonneg _ _ _ _ _) (norm_nonneg _)) b ⟨hab, le_rfl⟩
  simp only [sub_self, zero_smul, NormedSpace.exp_zero, Matrix.one_mulVec] at key
  rw [← mul_assoc, Complex.coe_smul]
  exact key

/-! ## C139 -/

/-- **C139** The expectation values of an observable `A` after `m` time steps deviate from those of the exact evolution by at most
`‖A‖` times the time integral of the mismatch of Hamiltonians and rates. -/
theorem c139_deviation (p : LPar n) (Ls : List (Matrix n n ℂ)) (times : List ℝ) (u x : Pulse)
    (hL : p.Lindblads Ls times u x) (hne : times ≠ []) (hd : p.drift.length = times.length) (hu : u.length = times.length)
    (hrow : ∀ row ∈ u, row.length = p.ctrl.length)
    (hdH : ∀ H ∈ p.drift, H.IsHermitian) (hcH : ∀ H ∈ p.ctrl, H.IsHermitian)
    (hm : p.method = .frechet) (hE : p.L.ExpmOk) (hi : p.init = 1) (hpos : ∀ τ ∈ times, 0 ≤ τ)
    (hrate : ∀ f, p.diss.prefactor = some f → ∀ row ∈ f u x, ∀ w ∈ row, 0 ≤ w) :
    ∃ f, p.fwd times u x = .ok f ∧ f.length = times.length + 1 ∧
      ∀ (H : ℝ → Matrix n n ℂ) (w : ℝ → List ℝ) (ρ : ℝ → Matrix n n ℂ) (ε : Fin times.length → ℝ), OpenEvolves H w Ls times.sum ρ →
        (∀ s ∈ Set.Ico 0 times.sum, (w s).length = Ls.length) →
        (∀ (t : Fin times.length), ∀ s ∈ Set.Ico (gridPoint (fun t : Fin times.length => times[t]) t)
            (gridPoint (fun t : Fin times.length => times[t]) (t + 1)),
          mismatch Ls (H s) (hamiltonian (p.drift.getD t 0) p.ctrl (u.getD t [])) (w s) (weightsAt p Ls u x t) ≤ ε t) →
        ∀ (A : Matrix n n ℂ) (m : Nat), m ≤ times.length →
          ‖(A * stateAt f m (ρ 0)).trace - (A * ρ (gridPoint (fun t : Fin times.length => times[t]) m)).trace‖ ≤
            ‖A‖ * ∑ t : Fin times.length, if (t : Nat) < m then times[t] * ε t else 0 := by
  obtain ⟨G, f, h1, h2, h3, h4⟩ := LPar.gens_fin p Ls times u x hL hne hd hu hrow hdH hcH hm hE hi
  refine ⟨f, h1, h2, fun H w ρ ε hρ hw hε A₀ m₀ hm₀ => ?_⟩
  set σ : Fin times.length → ℝ := fun t => times[t] with hσ
  have hσ0 : ∀ t, 0 ≤ σ t := fun t => hpos _ (List.getElem_mem _)
  have hwt : ∀ t : Fin times.length, (weightsAt p Ls u x t).length = Ls.length ∧ ∀ r ∈ weightsAt p Ls u x t, 0 ≤ r := by
    intro t
    unfold weightsAt
    cases hp : p.diss.prefactor with
    | none => exact ⟨by simp, fun r hr => by rw [List.eq_of_mem_replicate hr]; exact zero_le_one⟩
    | some g =>
      obtain ⟨k1, k2⟩ := hL.2.2.2 g hp
      have : (t : Nat) < (g u x).length := by rw [k1]; exact t.2
      show ((g u x).getD t []).length = _ ∧ ∀ r ∈ (g u x).getD t [], 0 ≤ r
      rw [List.getD_eq_getElem _ _ this]
      exact ⟨k2 _ (List.getElem_mem this), hrate g hp _ (List.getElem_mem this)⟩
  have hterm : ∀ t : Fin times.length, 0 ≤ σ t * ε t := by
    intro t
    rcases (hσ0 t).eq_or_lt with h | h
    · rw [← h, zero_mul]
    · refine mul_nonneg h.le (le_trans (mismatch_nonneg _ _ _ _ _) (hε t (gridPoint σ t) ⟨le_rfl, ?_⟩))
      rw [gridPoint_succ]
      linarith
  suffices key : ∀ m, m ≤ times.length → ∀ A : Matrix n n ℂ,
      ‖(A * stateAt f m (ρ 0)).trace - (A * ρ (gridPoint σ m)).trace‖ ≤
        ‖A‖ * ∑ t : Fin times.length, if (t : Nat) < m then times[t] * ε t else 0 from key m₀ hm₀ A₀
  intro m
  induction m with
  | zero =>
    intro _ A
    have : stateAt f 0 (ρ 0) = ρ 0 := by
      unfold stateAt
      rw [List.getD_eq_getElem?_getD, h3 0 (Nat.zero_le _)]
      simp only [List.take_zero, List.foldl_nil, Option.getD_some, Matrix.one_mulVec]
      rfl
    rw [this, gridPoint_zero]
    simp
  | succ m ih =>
    intro hmN A
    let t : Fin times.length := ⟨m, hmN⟩
    have e1 : stateAt f (m + 1) (ρ 0) = unvec (NormedSpace.exp (((σ t : ℝ) : ℂ) • G t) *ᵥ vec (stateAt f m (ρ 0))) := by
      unfold stateAt
      rw [List.getD_eq_getElem?_getD, List.getD_eq_getElem?_getD, h3 _ hmN, h3 m (Nat.le_of_succ_le hmN),
        List.take_succ_eq_append_getElem (by simpa using hmN), List.foldl_append]
      simp only [List.foldl_cons, List.foldl_nil, List.getElem_ofFn, Option.getD_some]
      rw [← Matrix.mulVec_mulVec]
      rfl
    have hH : (hamiltonian (p.drift[t]'(by rw [hd]; exact t.2)) p.ctrl (u[t]'(by rw [hu]; exact t.2))).IsHermitian :=
      hamiltonian_isHermitian _ (hdH _ (List.getElem_mem _)) hcH
    have hzip : ∀ q ∈ (weightsAt p Ls u x t).zip Ls, 0 ≤ q.1 := fun q hq => (hwt t).2 _ (List.of_mem_zip hq).1
    obtain ⟨B, hB, hBX⟩ := dual_observable (cp_exp hH _ hzip (h4 t) (σ t) (hσ0 t)) (physical_exp hH _ (h4 t) (σ t)) A
    have hsucc : gridPoint σ (m + 1) = gridPoint σ m + σ t := gridPoint_succ σ t
    have ha0 : 0 ≤ gridPoint σ m := by rw [← gridPoint_zero σ]; exact gridPoint_mono hσ0 (Nat.zero_le _)
    have hbS : gridPoint σ (m + 1) ≤ times.sum := by
      rw [← sum_getElem_list, ← gridPoint_last σ]
      exact gridPoint_mono hσ0 hmN
    have hstep := hρ.step hw ha0 (gridPoint_mono hσ0 (Nat.le_succ m)) hbS hH (hwt t).1 (hwt t).2 (h4 t) (ε := ε t)
      (fun s hs => by
        have := hε t s hs
        rwa [List.getD_eq_getElem p.drift _ (by rw [hd]; exact t.2), List.getD_eq_getElem u _ (by rw [hu]; exact t.2)] at this) A
    have hdiff : gridPoint σ (m + 1) - gridPoint σ m = σ t := by rw [hsucc]; ring
    rw [hdiff, hBX] at hstep
    have hih := ih (Nat.le_of_succ_le hmN) B
    rw [e1, hBX]
    have hsum : (∑ t : Fin times.length, if (t : Nat) < m + 1 then times[t] * ε t else 0) =
        (∑ t : Fin times.length, if (t : Nat) < m then times[t] * ε t else 0) + σ t * ε t :=
      gridPoint_succ (fun t => times[t] * ε t) t
    rw [hsum]
    have hnn : 0 ≤ ∑ t : Fin times.length, if (t : Nat) < m then times[t] * ε t else 0 := by
      refine Finset.sum_nonneg fun t _ => ?_
      split
      · exact hterm t
      · exact le_rfl
    calc ‖(B * stateAt f m (ρ 0)).trace - (A * ρ (gridPoint σ (m + 1))).trace‖
        ≤ ‖(B * stateAt f m (ρ 0)).trace - (B * ρ (gridPoint σ m)).trace‖ +
          ‖(B * ρ (gridPoint σ m)).trace - (A * ρ (gridPoint σ (m + 1))).trace‖ := norm_sub_le_norm_sub_add_norm_sub _ _ _
      _ ≤ ‖A‖ * (∑ t : Fin times.length, if (t : Nat) < m then times[t] * ε t else 0) + ‖A‖ * (ε t * σ t) := by
        refine add_le_add (hih.trans (mul_le_mul_of_nonneg_right hB hnn)) ?_
        rw [norm_sub_rev]
        exact hstep
      _ = _ := by ring

/-- **C139** Constant rates and Lipschitz controls, sampled anywhere in the time steps: the error of expectation values is at most
proportional to the longest time step. -/
theorem c139_lipschitz (p : LPar n) (Ls : List (Matrix n n ℂ)) (times : List ℝ) (x : Pulse) (D : ℝ → Matrix n n ℂ)
    (v : ℝ → Fin p.ctrl.length → ℝ) (ρ : ℝ → Matrix n n ℂ)
    (hs : p.diss.supOp = none) (hl : p.diss.lindblad = some Ls) (hpf : p.diss.prefactor = none) (hLne : Ls ≠ [])
    (hne : times ≠ []) (hd : p.drift.length = times.length)
    (hdH : ∀ H ∈ p.drift, H.IsHermitian) (hcH : ∀ H ∈ p.ctrl, H.IsHermitian)
    (hm : p.method = .frechet) (hE : p.L.ExpmOk) (hi : p.init = 1) (hpos : ∀ τ ∈ times, 0 ≤ τ)
    (hD : ∀ t : Fin times.length, ∀ s ∈ Set.Ico (gridPoint (fun t : Fin times.length => times[t]) t)
      (gridPoint (fun t : Fin times.length => times[t]) (t + 1)), D s = p.drift.getD t 0)
    (hρ : OpenEvolves (continuousHam D p.ctrl.get v) (fun _ => List.replicate Ls.length 1) Ls times.sum ρ)
    (Λ : Fin p.ctrl.length → ℝ) (hΛ0 : ∀ c, 0 ≤ Λ c)
    (hΛ : ∀ c, ∀ s ∈ Set.Icc 0 times.sum, ∀ s' ∈ Set.Icc 0 times.sum, |v s c - v s' c| ≤ Λ c * |s - s'|)
    (ξ : Fin times.length → ℝ)
    (hξ : ∀ t : Fin times.length, ξ t ∈ Set.Icc (gridPoint (fun t : Fin times.length => times[t]) t)
      (gridPoint (fun t : Fin times.length => times[t]) (t + 1)))
    (w : ℝ) (hw : ∀ τ ∈ times, τ ≤ w) :
    ∃ f, p.fwd times (rowsOf fun t => v (ξ t)) x = .ok f ∧ ∀ (A : Matrix n n ℂ) (m : Nat), m ≤ times.length →
      ‖(A * stateAt f m (ρ 0)).trace - (A * ρ (gridPoint (fun t : Fin times.length => times[t]) m)).trace‖ ≤
        ‖A‖ * (w * times.sum * (2 * ∑ c, Λ c * ‖p.ctrl.get c‖)) := by
  set σ : Fin times.length → ℝ := fun t => times[t] with hσ
  have hσ0 : ∀ t, 0 ≤ σ t := fun t => hpos _ (List.getElem_mem _)
  have hSum : ∑ t, σ t = times.sum := sum_getElem_list times
  have hb : ∀ t : Nat, t ≤ times.length → gridPoint σ t ∈ Set.Icc 0 times.sum := fun t ht =>
    ⟨by rw [← gridPoint_zero σ]; exact gridPoint_mono hσ0 (Nat.zero_le _),
      by rw [← hSum, ← gridPoint_last σ]; exact gridPoint_mono hσ0 ht⟩
  have hsh := rowsOf_shape fun t => v (ξ t)
  obtain ⟨f, h1, -, h2⟩ := c139_deviation p Ls times (rowsOf fun t => v (ξ t)) x
    ⟨hs, hl, hLne, fun g hg => by rw [hpf] at hg; cases hg⟩ hne hd hsh.1 hsh.2 hdH hcH hm hE hi hpos
    (fun g hg => by rw [hpf] at hg; cases hg)
  have hC : 0 ≤ 2 * ∑ c, Λ c * ‖p.ctrl.get c‖ :=
    mul_nonneg zero_le_two (Finset.sum_nonneg fun c _ => mul_nonneg (hΛ0 c) (norm_nonneg _))
  refine ⟨f, h1, fun A m hmN => ?_⟩
  have key := h2 _ _ ρ (fun _ => w * (2 * ∑ c, Λ c * ‖p.ctrl.get c‖)) hρ (fun _ _ => by simp) (fun t s hs' => by
    have hW : weightsAt p Ls (rowsOf fun t => v (ξ t)) x t = List.replicate Ls.length 1 := by
      unfold weightsAt
      rw [hpf]
    have hz : (((List.replicate Ls.length (1 : ℝ)).zip (List.replicate Ls.length (1 : ℝ))).zip Ls).map
        (fun q => |q.1.1 - q.1.2| * (2 * ‖q.2‖ ^ 2)) = (((List.replicate Ls.length (1 : ℝ)).zip (List.replicate Ls.length (1 : ℝ))).zip Ls).map
        (fun _ => (0 : ℝ)) := by
      refine List.map_congr_left fun q hq => ?_
      have h3 := List.of_mem_zip (List.of_mem_zip hq).1
      rw [List.eq_of_mem_replicate h3.1, List.eq_of_mem_replicate h3.2, sub_self, abs_zero, zero_mul]
    unfold mismatch
    rw [hW, hz]
    simp only [List.map_const', List.sum_replicate, smul_zero, add_zero]
    rw [rowsOf_get _ t t.2, hamiltonian_eq_sum _ _ _ (by simp)]
    unfold continuousHam
    rw [hD t s hs', add_sub_add_left_eq_sub, ← Finset.sum_sub_distrib]
    have h4 : ∀ c : Fin p.ctrl.length, ‖((v s c : ℝ) : ℂ) • p.ctrl.get c -
        (((List.ofFn (v (ξ t))).getD c 0 : ℝ) : ℂ) • p.ctrl[c]‖ ≤ w * (Λ c * ‖p.ctrl.get c‖) := by
      intro c
      have e : (List.ofFn (v (ξ t))).getD c 0 = v (ξ t) c := by simp
      rw [e, show p.ctrl[c] = p.ctrl.get c from rfl, ← sub_smul, ← Complex.ofReal_sub, norm_smul, Complex.norm_real, Real.norm_eq_abs]
      have h5 := hΛ c s ⟨(hb t t.2.le).1.trans hs'.1, hs'.2.le.trans (hb (t + 1) t.2).2⟩ (ξ t)
        ⟨(hb t t.2.le).1.trans (hξ t).1, (hξ t).2.trans (hb (t + 1) t.2).2⟩
      have h6 : |s - ξ t| ≤ w := by
        have hg := gridPoint_succ σ t
        have hwt : σ t ≤ w := hw _ (List.getElem_mem _)
        rw [abs_le]
        constructor <;> linarith [hs'.1, hs'.2, (hξ t).1, (hξ t).2]
      have h7 := h5.trans (mul_le_mul_of_nonneg_left h6 (hΛ0 c))
      have h8 := mul_le_mul_of_nonneg_right h7 (norm_nonneg (p.ctrl.get c))
      linarith
    have h9 := (norm_sum_le _ _).trans (Finset.sum_le_sum fun c (_ : c ∈ (Finset.univ : Finset (Fin p.ctrl.length))) => h4 c)
    rw [← Finset.mul_sum] at h9
    linarith) A m hmN
  refine key.trans (mul_le_mul_of_nonneg_left ?_ (norm_nonneg A))
  have hw0 : 0 ≤ w := by
    obtain ⟨τ, hτ⟩ := List.exists_mem_of_ne_nil _ hne
    exact (hpos τ hτ).trans (hw τ hτ)
  calc (∑ t : Fin times.length, if (t : Nat) < m then times[t] * (w * (2 * ∑ c, Λ c * ‖p.ctrl.get c‖)) else 0)
      ≤ ∑ t : Fin times.length, times[t] * (w * (2 * ∑ c, Λ c * ‖p.ctrl.get c‖)) := by
        refine Finset.sum_le_sum fun t _ => ?_
        split
        · exact le_rfl
        · exact mul_nonneg (hσ0 t) (mul_nonneg hw0 hC)
    _ = _ := by
        rw [← Finset.sum_mul, sum_getElem_list]
        ring

namespace Ex139

/-- A qubit which decays with rates given by the amplitudes. -/
noncomputable def decay (L : Lapack (Fin 2 × Fin 2)) : LPar (Fin 2) :=
  ⟨L, .frechet, false, 1, [0, 0], [0], ⟨none, some [!![0, 1; 0, 0]], some fun u _ => u, none, none, none⟩⟩

/-- The populations if the rate increases linearly. -/
noncomputable def pop (s : ℝ) : Matrix (Fin 2) (Fin 2) ℂ := Ex138.pop (s ^ 2 / 2)

theorem evolves : OpenEvolves (fun _ => (0 : Matrix (Fin 2) (Fin 2) ℂ)) (fun s => [s]) [!![0, 1; 0, 0]] 1 pop := by
  have hd : ∀ s, HasDerivAt pop (s • (Real.exp (-(s ^ 2 / 2)) : ℝ) • !![(1 : ℂ), 0; 0, -1]) s := by
    intro s
    have h1 : HasDerivAt (fun s : ℝ => s ^ 2 / 2) s s := by
      refine (((hasDerivAt_id s).pow 2).div_const 2).congr_deriv ?_
      simp
    exact (Ex138.pop_deriv (s ^ 2 / 2)).scomp s h1
  refine ⟨fun s _ => ⟨?_, ?_⟩, fun s _ => (hd s).continuousAt.continuousWithinAt, fun s _ => (hd s).hasDerivWithinAt.congr_deriv ?_⟩
  · have h : pop s = Matrix.diagonal ![((1 - Real.exp (-(s ^ 2 / 2)) : ℝ) : ℂ), ((Real.exp (-(s ^ 2 / 2)) : ℝ) : ℂ)] := by
      ext i j
      fin_cases i <;> fin_cases j <;> simp [pop, Ex138.pop]
    rw [h, Matrix.posSemidef_diagonal_iff]
    intro i
    fin_cases i
    · show (0 : ℂ) ≤ ((1 - Real.exp (-(s ^ 2 / 2)) : ℝ) : ℂ)
      have : Real.exp (-(s ^ 2 / 2)) ≤ 1 := Real.exp_le_one_iff.2 (by nlinarith [sq_nonneg s])
      exact_mod_cast sub_nonneg.2 this
    · show (0 : ℂ) ≤ ((Real.exp (-(s ^ 2 / 2)) : ℝ) : ℂ)
      exact_mod_cast (Real.exp_pos _).le
  · simp [pop, Ex138.pop, Matrix.trace_fin_two]
  · have hT : (!![0, 1; 0, 0] : Matrix (Fin 2) (Fin 2) ℂ)ᴴ = !![0, 0; 1, 0] := by
      ext i j
      fin_cases i <;> fin_cases j <;> simp
    ext i j
    fin_cases i <;> fin_cases j <;> simp [master, pop, Ex138.pop, hT] <;> ring_nf

/-- Rates sampled in the middle of two time steps. -/
example : ∃ (L : Lapack (Fin 2 × Fin 2)) (f : _), (decay L).fwd [1 / 2, 1 / 2] [[1 / 4], [3 / 4]] [] = .ok f ∧
    ∀ A : Matrix (Fin 2) (Fin 2) ℂ, ‖(A * stateAt f 2 !![0, 0; 0, 1]).trace - (A * pop 1).trace‖ ≤
      ‖A‖ * (1 / 2 * ‖(!![0, 1; 0, 0] : Matrix (Fin 2) (Fin 2) ℂ)‖ ^ 2) := by
  obtain ⟨L, -, -, hE, -⟩ := lapack_exists (Fin 2 × Fin 2)
  obtain ⟨f, h1, -, h2⟩ := c139_deviation (decay L) [!![0, 1; 0, 0]] [1 / 2, 1 / 2] [[1 / 4], [3 / 4]] []
    ⟨rfl, rfl, by simp, fun f hf => by cases hf; simp⟩ (by simp) rfl rfl (by simp [decay]) (by simp [decay, Matrix.IsHermitian])
    (by simp [decay, Matrix.IsHermitian]) rfl hE rfl (by simp) (fun f hf => by cases hf; simp; norm_num)
  refine ⟨L, f, h1, fun A => ?_⟩
  have hg : ∀ k, gridPoint (fun t : Fin [(1 / 2 : ℝ), 1 / 2].length => [(1 / 2 : ℝ), 1 / 2][t]) k = ([(1 / 2 : ℝ), 1 / 2].take k).sum := by
    intro k
    rw [gridPoint_take]
    congr 2
  have h0 : pop 0 = !![0, 0; 0, 1] := by simp [pop, Ex138.pop]
  have hS : [(1 / 2 : ℝ), 1 / 2].sum = 1 := by norm_num
  have key := h2 (fun _ => 0) (fun s => [s]) pop (fun _ => 1 / 2 * ‖(!![0, 1; 0, 0] : Matrix (Fin 2) (Fin 2) ℂ)‖ ^ 2)
    (by rw [hS]; exact evolves) (fun s _ => rfl) (fun t s hs => by
      have h3 : 0 ≤ ‖(!![0, 1; 0, 0] : Matrix (Fin 2) (Fin 2) ℂ)‖ ^ 2 := by positivity
      have h4 : ∀ r : ℝ, |s - r| ≤ 1 / 4 → |s - r| * (2 * ‖(!![0, 1; 0, 0] : Matrix (Fin 2) (Fin 2) ℂ)‖ ^ 2) ≤
          1 / 2 * ‖(!![0, 1; 0, 0] : Matrix (Fin 2) (Fin 2) ℂ)‖ ^ 2 := fun r hr => by nlinarith
      rw [hg, hg] at hs
      fin_cases t
      · have h5 : |s - 1 / 4| ≤ 1 / 4 := by
          norm_num at hs
          rw [abs_le]
          constructor <;> linarith [hs.1, hs.2]
        simpa [mismatch, decay, weightsAt, hamiltonian] using h4 _ h5
      · have h5 : |s - 3 / 4| ≤ 1 / 4 := by
          norm_num at hs
          rw [abs_le]
          constructor <;> linarith [hs.1, hs.2]
        simpa [mismatch, decay, weightsAt, hamiltonian] using h4 _ h5) A 2 le_rfl
  rw [hg, h0] at key
  have e : ([(1 / 2 : ℝ), 1 / 2].take 2).sum = 1 := by norm_num
  rw [e] at key
  refine key.trans (mul_le_mul_of_nonneg_left (le_of_eq ?_) (norm_nonneg A))
  show (∑ t : Fin 2, if (t : Nat) < 2 then [(1 / 2 : ℝ), 1 / 2][t] * (1 / 2 * ‖(!![0, 1; 0, 0] : Matrix (Fin 2) (Fin 2) ℂ)‖ ^ 2) else 0) = _
  rw [Fin.sum_univ_two]
  simp
  ring

/-- A control which increases linearly while the qubit decays, sampled at the beginning of the time steps. -/
example : ∃ (L : Lapack (Fin 2 × Fin 2)) (f : _),
    (Ex138.decay L).fwd [1, 2] (rowsOf fun (t : Fin 2) (_ : Fin 1) => gridPoint (fun t : Fin 2 => [(1 : ℝ), 2][t]) t) [] = .ok f ∧
    ∀ (A : Matrix (Fin 2) (Fin 2) ℂ) (m : Nat), m ≤ 2 →
      ‖(A * stateAt f m (Ex138.pop 0)).trace - (A * Ex138.pop (gridPoint (fun t : Fin 2 => [(1 : ℝ), 2][t]) m)).trace‖ ≤
        ‖A‖ * (2 * 3 * (2 * ‖(!![1, 0; 0, -1] : Matrix (Fin 2) (Fin 2) ℂ)‖)) := by
  obtain ⟨L, -, -, hE, -⟩ := lapack_exists (Fin 2 × Fin 2)
  have hS : [(1 : ℝ), 2].sum = 3 := by norm_num
  have hev : OpenEvolves (continuousHam (fun _ => 0) (Ex138.decay L).ctrl.get fun s _ => s) (fun _ => List.replicate 1 1)
      [!![0, 1; 0, 0]] [(1 : ℝ), 2].sum Ex138.pop := by
    refine ⟨fun s hs => ⟨?_, ?_⟩, fun s _ => (Ex138.pop_deriv s).continuousAt.continuousWithinAt,
      fun s _ => (Ex138.pop_deriv s).hasDerivWithinAt.congr_deriv ?_⟩
    · have h : Ex138.pop s = Matrix.diagonal ![((1 - Real.exp (-s) : ℝ) : ℂ), ((Real.exp (-s) : ℝ) : ℂ)] := by
        ext i j
        fin_cases i <;> fin_cases j <;> simp [Ex138.pop]
      rw [h, Matrix.posSemidef_diagonal_iff]
      intro i
      fin_cases i
      · show (0 : ℂ) ≤ ((1 - Real.exp (-s) : ℝ) : ℂ)
        have : Real.exp (-s) ≤ 1 := Real.exp_le_one_iff.2 (by linarith [hs.1])
        exact_mod_cast sub_nonneg.2 this
      · show (0 : ℂ) ≤ ((Real.exp (-s) : ℝ) : ℂ)
        exact_mod_cast (Real.exp_pos _).le
    · simp [Ex138.pop, Matrix.trace_fin_two]
    · have hT : (!![0, 1; 0, 0] : Matrix (Fin 2) (Fin 2) ℂ)ᴴ = !![0, 0; 1, 0] := by
        ext i j
        fin_cases i <;> fin_cases j <;> simp
      have hH : continuousHam (fun _ => 0) (Ex138.decay L).ctrl.get (fun s _ => s) s = (s : ℂ) • !![1, 0; 0, -1] := by
        show (0 : Matrix (Fin 2) (Fin 2) ℂ) + ∑ c : Fin 1, (s : ℂ) • ([!![1, 0; 0, -1]] : List (Matrix (Fin 2) (Fin 2) ℂ)).get c = _
        simp
      rw [hH]
      ext i j
      fin_cases i <;> fin_cases j <;> simp [master, Ex138.pop, hT] <;> ring_nf
  obtain ⟨f, h1, h2⟩ := c139_lipschitz (Ex138.decay L) [!![0, 1; 0, 0]] [1, 2] [] (fun _ => 0) (fun s _ => s) Ex138.pop rfl rfl rfl
    (by simp) (by simp) rfl (by simp [Ex138.decay, Matrix.IsHermitian])
    (by
      intro H hH
      rw [show (Ex138.decay L).ctrl = [!![1, 0; 0, -1]] from rfl, List.mem_singleton] at hH
      subst hH
      ext i j
      fin_cases i <;> fin_cases j <;> simp)
    rfl hE rfl (by simp) (fun t s _ => by
      have : ∀ k : Fin 2, ([0, 0] : List (Matrix (Fin 2) (Fin 2) ℂ)).getD k 0 = 0 := by
        intro k
        fin_cases k <;> rfl
      exact (this t).symm) hev (fun _ => 1) (fun _ => zero_le_one) (fun c s _ s' _ => by rw [one_mul])
    (fun t => gridPoint (fun t : Fin 2 => [(1 : ℝ), 2][t]) t)
    (fun t => ⟨le_rfl, gridPoint_mono (fun t => by fin_cases t <;> simp) (Nat.le_succ _)⟩) 2 (by simp)
  refine ⟨L, f, h1, fun A m hm => (h2 A m hm).trans (mul_le_mul_of_nonneg_left (le_of_eq ?_) (norm_nonneg A))⟩
  rw [hS]
  congr 2
  show (∑ c : Fin 1, 1 * ‖([!![1, 0; 0, -1]] : List (Matrix (Fin 2) (Fin 2) ℂ)).get c‖) = _
  simp

end Ex139

end
end Verif.Cost
