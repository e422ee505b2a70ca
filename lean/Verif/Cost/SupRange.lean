import Verif.Cost.Leakage
import Verif.Solver.Positivity

/-!
# C97: infidelity and leakage computed from the Lindblad solver
-/

namespace Verif.Cost
open Verif Verif.Operator Verif.Solver Matrix
open scoped Kronecker ComplexOrder

section
variable {n : Type} [Fintype n] [DecidableEq n]

/-! ## Model -/

/-- `LeakageLiouville.costs` with `input_unitary=False`, `monte_carlo=False`, cost_functions.py:1851-1865. -/
noncomputable def leakLiouvilleSup (l : List n) (fwd : List (Sup n)) : Except PyErr ℝ := do
  let final ← last fwd
  pure (leakElement l final)

/-! ## Specification -/

/-- The computational states as columns. -/
def embedding (cs : Option (List n)) : Matrix n (CompIdx cs) ℂ := Matrix.of fun i a => if i = sel cs a then 1 else 0

/-- Specification: on matrices living on the computational subspace the super operator is conjugation with `T`. -/
def ActsAs (cs : Option (List n)) (T : Matrix (CompIdx cs) (CompIdx cs) ℂ) (P : Sup n) : Prop :=
  ∀ ρ : Matrix (CompIdx cs) (CompIdx cs) ℂ,
    P *ᵥ vec (embedding cs * ρ * (embedding cs)ᴴ) = vec (embedding cs * (T * ρ * Tᴴ) * (embedding cs)ᴴ)

/-! ## Proof -/

theorem embedding_isometry (cs : Option (List n)) (hcs : ∀ l, cs = some l → l.Nodup) :
    (embedding cs)ᴴ * embedding cs = 1 := by
  have hinj : Function.Injective (sel cs) := by
    cases cs with
    | none => exact Function.injective_id
    | some l => exact List.nodup_iff_injective_get.mp (hcs l rfl)
  ext a b
  rw [Matrix.mul_apply, Finset.sum_eq_single (sel cs a)]
  · simp only [embedding, Matrix.conjTranspose_apply, Matrix.of_apply, if_true, star_one, one_mul, Matrix.one_apply]
    by_cases h : a = b
    · subst h; simp
    · rw [if_neg h, if_neg fun h' => h (hinj h')]
  · intro i _ hi
    simp [embedding, hi]
  · simp

theorem embedding_trunc (cl : Closest) (cs : Option (List n)) (K : Matrix n n ℂ) :
    (embedding cs)ᴴ * (K * embedding cs) = truncTo cl cs false K := by
  have : truncTo cl cs false K = K.submatrix (sel cs) (sel cs) := by cases cs <;> rfl
  rw [this]
  ext a b
  simp [embedding, Matrix.mul_apply]

/-- Squared distance of a matrix from a multiple of an isometry. -/
theorem sumSq_multiple {k : Type} [Fintype k] [DecidableEq k] (X W : Matrix n k ℂ) (hW : Wᴴ * W = 1) (hk : 0 < Fintype.card k) :
    ∑ i, ∑ a, ‖X i a - (((Wᴴ * X).trace / (Fintype.card k : ℂ)) • W) i a‖ ^ 2 =
      (Xᴴ * X).trace.re - ‖(Wᴴ * X).trace‖ ^ 2 / Fintype.card k := by
  set τ := (Wᴴ * X).trace with hτ
  set d : ℂ := (Fintype.card k : ℂ) with hd
  have hd0 : (Fintype.card k : ℝ) ≠ 0 := by positivity
  have h0 : ∀ Y : Matrix n k ℂ, ∑ i, ∑ a, ‖Y i a‖ ^ 2 = (Yᴴ * Y).trace.re := by
    intro Y
    rw [Matrix.trace, Complex.re_sum, Finset.sum_comm]
    refine Finset.sum_congr rfl fun a _ => ?_
    rw [Matrix.diag_apply, Matrix.mul_apply, Complex.re_sum]
    refine Finset.sum_congr rfl fun i _ => ?_
    rw [Matrix.conjTranspose_apply, ← Complex.normSq_eq_norm_sq, Complex.normSq_apply]
    simp
  have h1 : (Xᴴ * W).trace = star τ := by
    rw [hτ, ← Matrix.trace_conjTranspose, Matrix.conjTranspose_mul, Matrix.conjTranspose_conjTranspose]
  have h2 : (Wᴴ * W).trace = d := by rw [hW, Matrix.trace_one]
  have h3 := h0 (X - (τ / d) • W)
  simp only [Matrix.sub_apply] at h3
  rw [h3]
  have hdne : d ≠ 0 := by rw [hd]; exact_mod_cast hd0
  have h4 : ((X - (τ / d) • W)ᴴ * (X - (τ / d) • W)).trace = (Xᴴ * X).trace - star τ * τ / d := by
    have e : star (τ / d) = star τ / d := by rw [star_div₀, hd]; simp
    simp only [Matrix.conjTranspose_sub, Matrix.conjTranspose_smul, Matrix.sub_mul, Matrix.mul_sub, Matrix.smul_mul,
      Matrix.mul_smul, Matrix.trace_sub, Matrix.trace_smul, h1, h2, ← hτ, smul_eq_mul, e]
    field_simp
    ring
  rw [h4, Complex.sub_re]
  congr 1
  have h5 : star τ * τ = ((‖τ‖ ^ 2 : ℝ) : ℂ) := by
    rw [← Complex.normSq_eq_norm_sq, Complex.normSq_eq_conj_mul_self]
    rfl
  rw [h5, hd, ← Complex.ofReal_natCast, ← Complex.ofReal_div, Complex.ofReal_re]

theorem entFidSup_sum (cs : Option (List n)) (T : Matrix (CompIdx cs) (CompIdx cs) ℂ) {m : Nat} (P : Fin m → Sup n) :
    entFidSup cs T (∑ r, P r) = ∑ r, entFidSup cs T (P r) := by
  induction m with
  | zero => simpa using entFidSup_zero cs T
  | succ m ih => rw [Fin.sum_univ_succ, Fin.sum_univ_succ, entFidSup_add, ih]

theorem entFid_embedding (cl : Closest) (cs : Option (List n)) (T : Matrix (CompIdx cs) (CompIdx cs) ℂ) (K : Matrix n n ℂ) :
    entFid cl cs T K false = ‖((embedding cs * T)ᴴ * (K * embedding cs)).trace‖ ^ 2 / dim cs / dim cs := by
  rw [entFid, ← embedding_trunc, Matrix.conjTranspose_mul, Matrix.mul_assoc]

/-- The infidelity of a channel is a mean of squared distances from multiples of the target. -/
theorem infidelity_kraus (cs : Option (List n)) (hcs : ∀ l, cs = some l → l.Nodup) (hd : 0 < Fintype.card (CompIdx cs))
    (T : Matrix (CompIdx cs) (CompIdx cs) ℂ) (hT : Tᴴ * T = 1) {m : Nat} (K : Fin m → Matrix n n ℂ)
    (hK : ∑ r, (K r)ᴴ * K r = 1) :
    1 - entFidSup cs T (∑ r, Solver.unitarySup (K r)) = (∑ r, ∑ i, ∑ a, ‖(K r * embedding cs) i a -
      ((((embedding cs * T)ᴴ * (K r * embedding cs)).trace / (Fintype.card (CompIdx cs) : ℂ)) • (embedding cs * T)) i a‖ ^ 2) /
        dim cs := by
  have hW : (embedding cs * T)ᴴ * (embedding cs * T) = 1 := by
    rw [Matrix.conjTranspose_mul, Matrix.mul_assoc, ← Matrix.mul_assoc (embedding cs)ᴴ, embedding_isometry cs hcs,
      Matrix.one_mul, hT]
  have hd0 : dim cs ≠ 0 := by unfold dim; positivity
  have h1 : ∑ r, ((K r * embedding cs)ᴴ * (K r * embedding cs)).trace = (Fintype.card (CompIdx cs) : ℂ) := by
    rw [← Matrix.trace_sum]
    have : ∑ r, (K r * embedding cs)ᴴ * (K r * embedding cs) = (embedding cs)ᴴ * (∑ r, (K r)ᴴ * K r) * embedding cs := by
      rw [Matrix.mul_sum, Matrix.sum_mul]
      refine Finset.sum_congr rfl fun r _ => ?_
      simp only [Matrix.conjTranspose_mul, Matrix.mul_assoc]
    rw [this, hK, Matrix.mul_one, embedding_isometry cs hcs, Matrix.trace_one]
  rw [entFidSup_sum, Finset.sum_congr rfl fun r _ => sumSq_multiple (K r * embedding cs) (embedding cs * T) hW hd,
    Finset.sum_sub_distrib, ← Complex.re_sum, h1, Complex.natCast_re,
    Finset.sum_congr rfl fun r _ => (c46_super_operator (fun _ => 0) cs hcs T (K r)).trans (entFid_embedding _ cs T (K r)),
    ← Finset.sum_div, ← Finset.sum_div, ← Finset.sum_div]
  change _ = (dim cs - _ / dim cs) / dim cs
  field_simp

theorem kraus_action {m : Nat} (K : Fin m → Matrix n n ℂ) (ρ : Matrix n n ℂ) :
    (∑ r, Solver.unitarySup (K r)) *ᵥ vec ρ = vec (∑ r, K r * ρ * (K r)ᴴ) := by
  rw [Matrix.sum_mulVec]
  simp only [unitarySup_mulVec]
  ext q
  simp [vec, Matrix.sum_apply]

/-- The fidelity of a channel is one exactly when it acts as the target. -/
theorem infidelity_zero (cs : Option (List n)) (hcs : ∀ l, cs = some l → l.Nodup) (hd : 0 < Fintype.card (CompIdx cs))
    (T : Matrix (CompIdx cs) (CompIdx cs) ℂ) (hT : Tᴴ * T = 1) {m : Nat} (K : Fin m → Matrix n n ℂ)
    (hK : ∑ r, (K r)ᴴ * K r = 1) :
    1 - entFidSup cs T (∑ r, Solver.unitarySup (K r)) = 0 ↔ ActsAs cs T (∑ r, Solver.unitarySup (K r)) := by
  have hd0 : dim cs ≠ 0 := by unfold dim; positivity
  have hW : (embedding cs * T)ᴴ * (embedding cs * T) = 1 := by
    rw [Matrix.conjTranspose_mul, Matrix.mul_assoc, ← Matrix.mul_assoc (embedding cs)ᴴ, embedding_isometry cs hcs,
      Matrix.one_mul, hT]
  have hF : entFidSup cs T (∑ r, Solver.unitarySup (K r)) =
      (∑ r, ‖((embedding cs * T)ᴴ * (K r * embedding cs)).trace‖ ^ 2) / dim cs / dim cs := by
    rw [entFidSup_sum, Finset.sum_congr rfl fun r _ =>
      (c46_super_operator (fun _ => 0) cs hcs T (K r)).trans (entFid_embedding _ cs T (K r)), ← Finset.sum_div, ← Finset.sum_div]
  constructor
  · intro h ρ
    have h1 := infidelity_kraus cs hcs hd T hT K hK
    rw [h, eq_comm, div_eq_zero_iff, or_iff_left hd0,
      Finset.sum_eq_zero_iff_of_nonneg fun r _ => Finset.sum_nonneg fun i _ => Finset.sum_nonneg fun a _ => by positivity] at h1
    have h2 : ∀ r, K r * embedding cs = (((embedding cs * T)ᴴ * (K r * embedding cs)).trace / (Fintype.card (CompIdx cs) : ℂ)) •
        (embedding cs * T) := by
      intro r
      ext i a
      have h3 := h1 r (Finset.mem_univ _)
      rw [Finset.sum_eq_zero_iff_of_nonneg fun i _ => Finset.sum_nonneg fun a _ => by positivity] at h3
      have h4 := h3 i (Finset.mem_univ _)
      rw [Finset.sum_eq_zero_iff_of_nonneg fun a _ => by positivity] at h4
      have h5 := h4 a (Finset.mem_univ _)
      exact sub_eq_zero.mp (norm_eq_zero.mp (pow_eq_zero_iff two_ne_zero |>.mp h5))
    rw [kraus_action]
    congr 1
    have h6 : ∀ r, K r * (embedding cs * ρ * (embedding cs)ᴴ) * (K r)ᴴ =
        (((‖((embedding cs * T)ᴴ * (K r * embedding cs)).trace‖ ^ 2 / dim cs / dim cs : ℝ)) : ℂ) •
          (embedding cs * (T * ρ * Tᴴ) * (embedding cs)ᴴ) := by
      intro r
      have e : K r * (embedding cs * ρ * (embedding cs)ᴴ) * (K r)ᴴ = (K r * embedding cs) * ρ * (K r * embedding cs)ᴴ := by
        simp only [Matrix.conjTranspose_mul, Matrix.mul_assoc]
      rw [e]
      set τ := ((embedding cs * T)ᴴ * (K r * embedding cs)).trace with hτ
      rw [h2 r, ← hτ, Matrix.conjTranspose_smul, Matrix.smul_mul, Matrix.smul_mul, Matrix.mul_smul, smul_smul]
      congr 1
      · have : τ * star τ = ((‖τ‖ ^ 2 : ℝ) : ℂ) := by
          rw [← Complex.normSq_eq_norm_sq, Complex.normSq_eq_conj_mul_self, mul_comm]
          rfl
        rw [star_div₀, Complex.ofReal_div, Complex.ofReal_div, ← this, dim]
        simp
        field_simp
      · simp only [Matrix.conjTranspose_mul, Matrix.mul_assoc]
    rw [Finset.sum_congr rfl fun r _ => h6 r, ← Finset.sum_smul, ← Complex.ofReal_sum, ← Finset.sum_div, ← Finset.sum_div,
      ← hF, ← sub_eq_zero.mp h, Complex.ofReal_one, one_smul]
  · intro h
    have h1 : ∀ a b : CompIdx cs, ∑ r, ((embedding cs * T)ᴴ * (K r * embedding cs)) a a *
        star (((embedding cs * T)ᴴ * (K r * embedding cs)) b b) = 1 := by
      intro a b
      have h2 := h (Matrix.single a b 1)
      rw [kraus_action, vec_inj] at h2
      have h3 : ((embedding cs * T)ᴴ * (embedding cs * (T * Matrix.single a b (1 : ℂ) * Tᴴ) * (embedding cs)ᴴ) * (embedding cs * T) :
          Matrix (CompIdx cs) (CompIdx cs) ℂ) a b = 1 := by
        have e : (embedding cs * T)ᴴ * (embedding cs * (T * Matrix.single a b 1 * Tᴴ) * (embedding cs)ᴴ) * (embedding cs * T) =
            ((embedding cs * T)ᴴ * (embedding cs * T)) * Matrix.single a b 1 * ((embedding cs * T)ᴴ * (embedding cs * T)) := by
          simp only [Matrix.conjTranspose_mul, Matrix.mul_assoc]
        rw [e, hW]
        simp
      rw [← h2, Matrix.mul_sum, Matrix.sum_mul, Matrix.sum_apply] at h3
      rw [← h3]
      refine Finset.sum_congr rfl fun r _ => ?_
      have e : (embedding cs * T)ᴴ * (K r * (embedding cs * Matrix.single a b (1 : ℂ) * (embedding cs)ᴴ) * (K r)ᴴ) * (embedding cs * T) =
          ((embedding cs * T)ᴴ * (K r * embedding cs)) * Matrix.single a b 1 * ((embedding cs * T)ᴴ * (K r * embedding cs))ᴴ := by
        simp only [Matrix.conjTranspose_mul, Matrix.conjTranspose_conjTranspose, Matrix.mul_assoc]
      rw [e]
      generalize (embedding cs * T)ᴴ * (K r * embedding cs) = Z
      rw [Matrix.mul_apply, Finset.sum_eq_single b]
      · rw [Matrix.mul_single_apply_same, mul_one, Matrix.conjTranspose_apply]
      · intro j _ hj
        rw [Matrix.mul_single_apply_of_ne _ _ _ _ _ hj, zero_mul]
      · simp
    have h2 : ∑ r, ‖((embedding cs * T)ᴴ * (K r * embedding cs)).trace‖ ^ 2 = dim cs * dim cs := by
      have h3 : ((∑ r, ‖((embedding cs * T)ᴴ * (K r * embedding cs)).trace‖ ^ 2 : ℝ) : ℂ) =
          ∑ a : CompIdx cs, ∑ b : CompIdx cs, ∑ r, ((embedding cs * T)ᴴ * (K r * embedding cs)) a a *
            star (((embedding cs * T)ᴴ * (K r * embedding cs)) b b) := by
        rw [Complex.ofReal_sum, Finset.sum_congr rfl fun a _ => Finset.sum_comm, Finset.sum_comm]
        refine Finset.sum_congr rfl fun r _ => ?_
        generalize (embedding cs * T)ᴴ * (K r * embedding cs) = Z
        rw [← Finset.sum_mul_sum, ← Complex.normSq_eq_norm_sq, Complex.normSq_eq_conj_mul_self, mul_comm, Matrix.trace, map_sum]
        rfl
      rw [Finset.sum_congr rfl fun a _ => Finset.sum_congr rfl fun b _ => h1 a b] at h3
      have h4 : ((∑ r, ‖((embedding cs * T)ᴴ * (K r * embedding cs)).trace‖ ^ 2 : ℝ) : ℂ) = ((dim cs * dim cs : ℝ) : ℂ) := by
        rw [h3]; simp [dim]
      exact_mod_cast h4
    rw [hF, h2]
    field_simp
    simp

theorem leakElement_density (l : List n) (hl : l.Nodup) (hne : l ≠ []) (P : Sup n)
    (hP : ∀ ρ : Matrix n n ℂ, ρ.PosSemidef → ρ.trace = 1 → ∃ ρ' : Matrix n n ℂ, P *ᵥ vec ρ = vec ρ' ∧ ρ'.PosSemidef ∧ ρ'.trace = 1) :
    ∃ ρ' : Matrix n n ℂ, ρ'.PosSemidef ∧ ρ'.trace = 1 ∧
      P *ᵥ vec (Matrix.diagonal fun i => if i ∈ l then 1 / (l.length : ℂ) else 0) = vec ρ' ∧
      leakElement l P = ∑ i, if i ∈ l then 0 else (ρ' i i).re := by
  have hd : (0 : ℝ) < l.length := by exact_mod_cast List.length_pos_iff.mpr hne
  have hdC : (l.length : ℂ) ≠ 0 := by exact_mod_cast hd.ne'
  set C : Matrix n n ℂ := Matrix.diagonal fun i => if i ∈ l then 1 / (l.length : ℂ) else 0 with hC
  have h1 : (1 : Matrix n n ℂ) - projLeak l = (l.length : ℂ) • C := by
    rw [projLeak_eq, ← Matrix.diagonal_one, Matrix.diagonal_sub, hC, ← Matrix.diagonal_smul]
    congr 1
    funext i
    by_cases h : i ∈ l <;> simp [h, hdC]
  have h2 : C.PosSemidef := by
    rw [hC]
    refine Matrix.PosSemidef.diagonal fun i => ?_
    by_cases h : i ∈ l
    · simp only [h, if_true]
      have : (1 / (l.length : ℂ)) = ((1 / (l.length : ℝ) : ℝ) : ℂ) := by simp
      rw [Pi.zero_apply, this]
      exact_mod_cast (by positivity : (0 : ℝ) ≤ 1 / l.length)
    · simp [h]
  have h3 : C.trace = 1 := by
    have e := sum_mem_list l hl fun _ => (1 / (l.length : ℝ))
    have e' : ∑ a : Fin l.length, (1 / (l.length : ℝ)) = 1 := by simp [hd.ne']
    rw [hC, Matrix.trace_diagonal]
    rw [e'] at e
    have := congrArg (fun x : ℝ => (x : ℂ)) e
    simpa [apply_ite] using this
  obtain ⟨ρ', a1, a2, a3⟩ := hP C h2 h3
  refine ⟨ρ', a2, a3, a1, ?_⟩
  unfold leakElement
  rw [h1]
  have e0 : vec ((l.length : ℂ) • C) = (l.length : ℂ) • vec C := by ext q; simp [vec]
  rw [e0, Matrix.mulVec_smul, a1, dotProduct_smul, smul_eq_mul, ← Complex.ofReal_natCast, Complex.re_ofReal_mul,
    ← mul_assoc, one_div_mul_cancel hd.ne', one_mul]
  have e1 : vec (projLeak l) ⬝ᵥ vec ρ' = ∑ i, (if i ∈ l then 0 else 1) * ρ' i i := by
    rw [projLeak_eq, dotProduct, Fintype.sum_prod_type]
    refine Finset.sum_congr rfl fun j _ => ?_
    rw [Finset.sum_eq_single j]
    · simp [vec]
    · intro b _ hb
      simp [vec, Matrix.diagonal_apply_ne _ hb]
    · simp
  rw [e1, Complex.re_sum]
  refine Finset.sum_congr rfl fun i _ => ?_
  by_cases h : i ∈ l <;> simp [h]

/-! ## C97 -/

/-- **C97** `OperationInfidelity` of a `LindbladSolver` is a number between 0 and 1; it vanishes exactly when the evolution
acts on the computational states as the unitary target. -/
theorem c97_infidelity (p : LPar n) (Ls : List (Matrix n n ℂ)) (times : List ℝ) (u x : Pulse)
    (hL : p.Lindblads Ls times u x) (hne : times ≠ []) (hdr : p.drift.length = times.length)
    (hu : u.length = times.length) (hrow : ∀ row ∈ u, row.length = p.ctrl.length)
    (hdH : ∀ H ∈ p.drift, H.IsHermitian) (hcH : ∀ H ∈ p.ctrl, H.IsHermitian)
    (hm : p.method = .frechet) (hE : p.L.ExpmOk) (hi : p.init = 1) (hτ : ∀ τ ∈ times, 0 ≤ τ)
    (hw : ∀ f, p.diss.prefactor = some f → ∀ row ∈ f u x, ∀ w ∈ row, 0 ≤ w)
    (cs : Option (List n)) (hcs : ∀ l, cs = some l → l.Nodup) (hd : 0 < Fintype.card (CompIdx cs))
    (T : Matrix (CompIdx cs) (CompIdx cs) ℂ) (hT : Tᴴ * T = 1) :
    ∃ f P c, p.fwd times u x = .ok f ∧ f.getLast? = some P ∧ opCostsSup cs T f = .ok c ∧ 0 ≤ c ∧ c ≤ 1 ∧
      (c = 0 ↔ ActsAs cs T P) := by
  obtain ⟨f, h1, h2, h3⟩ := c96_kraus p Ls times u x hL hne hdr hu hrow hdH hcH hm hE hi hτ hw
  have hf : f ≠ [] := fun h => by simp [h] at h2
  obtain ⟨m, K, hK, hP⟩ := h3 _ (List.getLast_mem hf)
  have hsup : f.getLast hf = ∑ r, Solver.unitarySup (K r) := by
    refine matrix_ext_mulVec fun ρ => ?_
    rw [hP, kraus_action]
  have hl : f.getLast? = some (∑ r, Solver.unitarySup (K r)) := by rw [← hsup]; exact List.getLast?_eq_some_getLast hf
  refine ⟨f, _, 1 - entFidSup cs T (∑ r, Solver.unitarySup (K r)), h1, hl, ?_, ?_, ?_, infidelity_zero cs hcs hd T hT K hK⟩
  · unfold opCostsSup
    rw [last_ok hl]
    rfl
  · rw [infidelity_kraus cs hcs hd T hT K hK]
    unfold dim
    positivity
  · have : 0 ≤ entFidSup cs T (∑ r, Solver.unitarySup (K r)) := by
      rw [entFidSup_sum]
      refine Finset.sum_nonneg fun r _ => ?_
      rw [c46_super_operator (fun _ => 0) cs hcs T (K r), entFid]
      unfold dim
      positivity
    linarith

/-- **C97** `LeakageLiouville` of a `LindbladSolver` is the population outside of the computational subspace after the evolution of the
fully mixed computational state, hence between 0 and 1. -/
theorem c97_leakage (p : LPar n) (Ls : List (Matrix n n ℂ)) (times : List ℝ) (u x : Pulse)
    (hL : p.Lindblads Ls times u x) (hne : times ≠ []) (hdr : p.drift.length = times.length)
    (hu : u.length = times.length) (hrow : ∀ row ∈ u, row.length = p.ctrl.length)
    (hdH : ∀ H ∈ p.drift, H.IsHermitian) (hcH : ∀ H ∈ p.ctrl, H.IsHermitian)
    (hm : p.method = .frechet) (hE : p.L.ExpmOk) (hi : p.init = 1) (hτ : ∀ τ ∈ times, 0 ≤ τ)
    (hw : ∀ f, p.diss.prefactor = some f → ∀ row ∈ f u x, ∀ w ∈ row, 0 ≤ w)
    (l : List n) (hl : l.Nodup) (hlne : l ≠ []) :
    ∃ (f : List (Sup n)) (P : Sup n) (ρ' : Matrix n n ℂ) (c : ℝ), p.fwd times u x = .ok f ∧ f.getLast? = some P ∧
      leakLiouvilleSup l f = .ok c ∧
      P *ᵥ vec (Matrix.diagonal fun i => if i ∈ l then 1 / (l.length : ℂ) else 0) = vec ρ' ∧
      c = (∑ i, if i ∈ l then 0 else (ρ' i i).re) ∧ 0 ≤ c ∧ c ≤ 1 := by
  obtain ⟨f, h1, h2, h3⟩ := c96_density p Ls times u x hL hne hdr hu hrow hdH hcH hm hE hi hτ hw
  have hf : f ≠ [] := fun h => by simp [h] at h2
  have hlast : f.getLast? = some (f.getLast hf) := List.getLast?_eq_some_getLast hf
  obtain ⟨ρ', a1, a2, a3, a4⟩ := leakElement_density l hl hlne _ (h3 _ (List.getLast_mem hf))
  have hpos : ∀ i, 0 ≤ (ρ' i i).re := fun i => (Complex.le_def.mp a1.diag_nonneg).1
  refine ⟨f, _, ρ', _, h1, hlast, ?_, a3, a4, ?_, ?_⟩
  · unfold leakLiouvilleSup
    rw [last_ok hlast]
    rfl
  · rw [a4]
    exact Finset.sum_nonneg fun i _ => by split <;> simp [hpos]
  · rw [a4]
    have : ∑ i, (ρ' i i).re = 1 := by
      have := congrArg Complex.re a2
      rwa [Matrix.trace, Complex.re_sum, Complex.one_re] at this
    rw [← this]
    exact Finset.sum_le_sum fun i _ => by split <;> simp [hpos]

/-! ## Concrete cases -/

theorem decayPre_nonneg : ∀ f, some decayPre = some f → ∀ row ∈ f [[1, 2], [3, 4], [5, 6]] [], ∀ w ∈ row, (0 : ℝ) ≤ w := by
  intro f hf
  cases hf
  intro row hrow w hw
  simp only [decayPre, List.mem_map, List.mem_range] at hrow
  obtain ⟨t, ht, rfl⟩ := hrow
  interval_cases t <;> simp at hw <;> rcases hw with rfl | rfl <;> norm_num

/-- `c97_infidelity` applies to the decaying qubit, with all states and with one computational state; so does `c97_leakage`. -/
example : ∃ (L : Lapack (Fin 2 × Fin 2)) (f : List (Sup (Fin 2))) (a b c : ℝ),
    (decayPar L (some decayPre) none).fwd [1, 2, 3] [[1, 2], [3, 4], [5, 6]] [] = .ok f ∧
    opCostsSup (n := Fin 2) none 1 f = .ok a ∧ 0 ≤ a ∧ a ≤ 1 ∧
    opCostsSup (some [1]) 1 f = .ok b ∧ 0 ≤ b ∧ b ≤ 1 ∧ leakLiouvilleSup [1] f = .ok c ∧ 0 ≤ c ∧ c ≤ 1 := by
  obtain ⟨L, -, -, hE, -⟩ := lapack_exists (Fin 2 × Fin 2)
  have hL : (decayPar L (some decayPre) none).Lindblads [!![0, 1; 0, 0], !![1, 0; 0, -1]] [1, 2, 3] [[1, 2], [3, 4], [5, 6]] [] :=
    ⟨rfl, rfl, by simp, fun f hf => by
      cases hf
      exact ⟨rfl, fun row hrow => by simp only [decayPre, List.mem_map] at hrow; obtain ⟨t, -, rfl⟩ := hrow; rfl⟩⟩
  obtain ⟨f, -, a, h1, -, h2, h3, h4, -⟩ := c97_infidelity _ _ _ _ _ hL (by simp) rfl rfl (by simp [decayPar]) decay_drift decay_ctrl rfl hE
    rfl (by simp) decayPre_nonneg none (by simp) (Fintype.card_pos_iff.mpr ⟨(0 : Fin 2)⟩) 1 (by simp)
  obtain ⟨f', -, b, g1, -, g2, g3, g4, -⟩ := c97_infidelity _ _ _ _ _ hL (by simp) rfl rfl (by simp [decayPar]) decay_drift decay_ctrl rfl hE
    rfl (by simp) decayPre_nonneg (some [1]) (by simp) (Fintype.card_pos_iff.mpr ⟨(0 : Fin 1)⟩) 1 (by simp)
  obtain ⟨f'', -, -, c, k1, -, k2, -, -, k3, k4⟩ := c97_leakage _ _ _ _ _ hL (by simp) rfl rfl (by simp [decayPar]) decay_drift decay_ctrl rfl hE
    rfl (by simp) decayPre_nonneg [1] (by simp) (by simp)
  rw [h1] at g1 k1
  cases g1
  cases k1
  exact ⟨L, f, a, b, c, h1, h2, h3, h4, g2, g3, g4, k2, k3, k4⟩

end
end Verif.Cost
