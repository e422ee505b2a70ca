import Mathlib.LinearAlgebra.Matrix.Vec
import Verif.Solver.Lindblad
import Verif.Solver.MonteCarloThms

/-!
# C38 - C42: the Lindblad solver
-/

namespace Verif.Solver
open Verif Verif.Operator Matrix
open scoped Kronecker

section
variable {n m : Type} [Fintype n] [DecidableEq n]

/-! ## Exponentials of super operators -/

theorem conjM_eq (A : Matrix n n ℂ) : conjM A = Aᴴᵀ := rfl

theorem conjM_mul (A B : Matrix n n ℂ) : conjM (A * B) = conjM A * conjM B := by
  simp [conjM_eq, Matrix.conjTranspose_mul, Matrix.transpose_mul]

theorem exp_conjM (A : Matrix n n ℂ) : NormedSpace.exp (conjM A) = conjM (NormedSpace.exp A) := by
  rw [conjM_eq, conjM_eq, Matrix.exp_transpose, Matrix.exp_conjTranspose]

open scoped Matrix.Norms.Operator in
theorem semiconj_exp {A B X : Matrix n n ℂ} (h : X * A = B * X) :
    X * NormedSpace.exp A = NormedSpace.exp B * X := by
  letI : NormedAlgebra ℚ (Matrix n n ℂ) := NormedAlgebra.restrictScalars ℚ ℂ _
  have : SemiconjBy X A B := h
  exact this.exp_right

/-- `A ↦ I ⊗ A`. -/
def oneKron : Matrix n n ℂ →+* Sup n where
  toFun A := (1 : Matrix n n ℂ) ⊗ₖ A
  map_one' := Matrix.one_kronecker_one
  map_mul' A B := by rw [← Matrix.mul_kronecker_mul, Matrix.one_mul]
  map_zero' := Matrix.kronecker_zero _
  map_add' A B := Matrix.kronecker_add _ _ _

/-- `A ↦ A ⊗ I`. -/
def kronOne : Matrix n n ℂ →+* Sup n where
  toFun A := A ⊗ₖ (1 : Matrix n n ℂ)
  map_one' := Matrix.one_kronecker_one
  map_mul' A B := by rw [← Matrix.mul_kronecker_mul, Matrix.one_mul]
  map_zero' := Matrix.zero_kronecker _
  map_add' A B := Matrix.add_kronecker _ _ _

open scoped Matrix.Norms.Operator in
theorem exp_oneKron (A : Matrix n n ℂ) :
    NormedSpace.exp ((1 : Matrix n n ℂ) ⊗ₖ A) = (1 : Matrix n n ℂ) ⊗ₖ NormedSpace.exp A := by
  letI : NormedAlgebra ℚ (Matrix n n ℂ) := NormedAlgebra.restrictScalars ℚ ℂ _
  letI : NormedAlgebra ℚ (Sup n) := NormedAlgebra.restrictScalars ℚ ℂ _
  refine (NormedSpace.map_exp oneKron ?_ A).symm
  refine continuous_matrix fun i j => ?_
  show Continuous fun A : Matrix n n ℂ => (1 : Matrix n n ℂ) i.1 j.1 * A i.2 j.2
  exact continuous_const.mul (continuous_id.matrix_elem i.2 j.2)

open scoped Matrix.Norms.Operator in
theorem exp_kronOne (A : Matrix n n ℂ) :
    NormedSpace.exp (A ⊗ₖ (1 : Matrix n n ℂ)) = NormedSpace.exp A ⊗ₖ (1 : Matrix n n ℂ) := by
  letI : NormedAlgebra ℚ (Matrix n n ℂ) := NormedAlgebra.restrictScalars ℚ ℂ _
  letI : NormedAlgebra ℚ (Sup n) := NormedAlgebra.restrictScalars ℚ ℂ _
  refine (NormedSpace.map_exp kronOne ?_ A).symm
  refine continuous_matrix fun i j => ?_
  show Continuous fun A : Matrix n n ℂ => A i.1 j.1 * (1 : Matrix n n ℂ) i.2 j.2
  exact (continuous_id.matrix_elem i.1 j.1).mul continuous_const

theorem exp_kron_sum (A B : Matrix n n ℂ) :
    NormedSpace.exp ((1 : Matrix n n ℂ) ⊗ₖ A + B ⊗ₖ (1 : Matrix n n ℂ)) = NormedSpace.exp B ⊗ₖ NormedSpace.exp A := by
  have hc : Commute ((1 : Matrix n n ℂ) ⊗ₖ A) (B ⊗ₖ (1 : Matrix n n ℂ)) := by
    show _ * _ = _ * _
    rw [← Matrix.mul_kronecker_mul, ← Matrix.mul_kronecker_mul]
    simp
  rw [Matrix.exp_add_of_commute _ _ hc, exp_oneKron, exp_kronOne, ← Matrix.mul_kronecker_mul, Matrix.one_mul,
    Matrix.mul_one]

/-! ## C38 -/

/-- Specification: right hand side of the master equation, weights `w` and Lindblad operators. -/
noncomputable def master (H : Matrix n n ℂ) (ws : List (ℝ × Matrix n n ℂ)) (ρ : Matrix n n ℂ) : Matrix n n ℂ :=
  (-Complex.I) • (H * ρ - ρ * H) + (ws.map fun p => (p.1 : ℂ) • (p.2 * ρ * p.2ᴴ -
    (1 / 2 : ℂ) • (p.2ᴴ * p.2 * ρ + ρ * (p.2ᴴ * p.2)))).sum

theorem dissOf_mulVec (L ρ : Matrix n n ℂ) :
    dissOf L *ᵥ vec ρ = vec (L * ρ * Lᴴ - (1 / 2 : ℂ) • (Lᴴ * L * ρ + ρ * (Lᴴ * L))) := by
  unfold dissOf
  rw [Matrix.sub_mulVec, Matrix.sub_mulVec, Matrix.smul_mulVec, Matrix.smul_mulVec, kronecker_mulVec_vec,
    kronecker_mulVec_vec, kronecker_mulVec_vec, ← vec_smul, ← vec_smul, ← vec_sub, ← vec_sub]
  congr 1
  simp only [conjM_eq, Matrix.transpose_mul, Matrix.transpose_transpose, Matrix.transpose_one, Matrix.one_mul,
    Matrix.mul_one, smul_add, Matrix.mul_assoc]
  abel

theorem supGen_mulVec (H ρ : Matrix n n ℂ) (hH : H.IsHermitian) (D : Sup n) :
    supGen ((-Complex.I) • H) D *ᵥ vec ρ = vec ((-Complex.I) • (H * ρ - ρ * H)) + D *ᵥ vec ρ := by
  unfold supGen
  rw [Matrix.add_mulVec, Matrix.add_mulVec, kronecker_mulVec_vec, kronecker_mulVec_vec, ← vec_add]
  congr 2
  simp only [conjM_eq, Matrix.transpose_transpose, Matrix.transpose_one, Matrix.one_mul, Matrix.mul_one,
    Matrix.conjTranspose_smul, hH.eq, Matrix.smul_mul, Matrix.mul_smul, smul_sub]
  simp [sub_eq_add_neg]

theorem foldl_add_eq (S : Sup n) (l : List (Sup n)) : l.foldl (· + ·) S = S + l.sum := by
  induction l generalizing S with
  | nil => simp
  | cons T l ih => rw [List.foldl_cons, ih, List.sum_cons, add_assoc]

/-- Weighted sum of super operators of Lindblad operators. -/
noncomputable def wDiss (ws : List (ℝ × Matrix n n ℂ)) : Sup n := (ws.map fun p => (p.1 : ℂ) • dissOf p.2).sum

theorem wDiss_mulVec (ws : List (ℝ × Matrix n n ℂ)) (ρ : Matrix n n ℂ) :
    wDiss ws *ᵥ vec ρ = vec ((ws.map fun p => (p.1 : ℂ) • (p.2 * ρ * p.2ᴴ -
    (1 / 2 : ℂ) • (p.2ᴴ * p.2 * ρ + ρ * (p.2ᴴ * p.2)))).sum) := by
  unfold wDiss
  induction ws with
  | nil => simp
  | cons p ws ih => simp only [List.map_cons, List.sum_cons, Matrix.add_mulVec, ih, Matrix.smul_mulVec, dissOf_mulVec, vec_add, vec_smul]

theorem weighted_eq (Ls : List (Matrix n n ℂ)) (f : List ℝ) (hL : Ls ≠ []) (hf : f.length = Ls.length) :
    weighted (Ls.map dissOf) f = .ok (wDiss (f.zip Ls)) := by
  cases Ls with
  | nil => exact absurd rfl hL
  | cons L Ls =>
    cases f with
    | nil => simp at hf
    | cons a f =>
      simp only [weighted, List.map_cons, foldl_add_eq]
      congr 1
      unfold wDiss
      rw [List.zip_cons_cons, List.map_cons, List.sum_cons]
      congr 2
      rw [List.zipWith_map_left, List.map_zip_eq_zipWith]
      rw [List.zipWith_comm]
      rfl

theorem allOk_map {α β : Type} (l : List β) (f : β → Except PyErr α) (g : β → α) (h : ∀ t ∈ l, f t = .ok (g t)) :
    allOk (l.map f) = .ok (l.map g) := by
  induction l with
  | nil => rfl
  | cons b l ih =>
    rw [List.map_cons, allOk, h b (by simp), ih fun t ht => h t (by simp [ht])]
    rfl

/-- The weights in front of the Lindblad operators at time step `t`: one without prefactor function. -/
noncomputable def weightsAt (p : LPar n) (Ls : List (Matrix n n ℂ)) (u x : Pulse) (t : Nat) : List ℝ :=
  match p.diss.prefactor with
  | none => List.replicate Ls.length 1
  | some f => (f u x).getD t []

/-- The dissipation described by Lindblad operators, with or without prefactor function of the documented shape. -/
def LPar.Lindblads (p : LPar n) (Ls : List (Matrix n n ℂ)) (times : List ℝ) (u x : Pulse) : Prop :=
  p.diss.supOp = none ∧ p.diss.lindblad = some Ls ∧ Ls ≠ [] ∧
    ∀ f, p.diss.prefactor = some f → (f u x).length = times.length ∧ ∀ row ∈ f u x, row.length = Ls.length

theorem constDiss_lindblad (d : Diss n) (Ls : List (Matrix n n ℂ)) (h : d.lindblad = some Ls) (hL : Ls ≠ []) :
    constDiss d = .ok (Ls.map dissOf) := by
  unfold constDiss
  rw [h]
  cases Ls with
  | nil => exact absurd rfl hL
  | cons L Ls => rfl

theorem calcDiss_lindblad (p : LPar n) (Ls : List (Matrix n n ℂ)) (times : List ℝ) (u x : Pulse)
    (h : p.Lindblads Ls times u x) :
    (calcDiss p.diss times u x).1 =
      .ok ((List.range times.length).map fun t => wDiss ((weightsAt p Ls u x t).zip Ls)) := by
  obtain ⟨h1, h2, h3, h4⟩ := h
  unfold calcDiss weightsAt
  rw [h1, constDiss_lindblad p.diss Ls h2 h3]
  cases hp : p.diss.prefactor with
  | some f =>
    obtain ⟨hl, hr⟩ := h4 f hp
    simp only
    rw [allOk_map _ _ (fun row => wDiss (row.zip Ls)) fun row hrow => weighted_eq Ls row h3 (hr row hrow)]
    congr 1
    apply List.ext_getElem
    · simp [hl]
    · intro t ht1 ht2
      have ht : t < (f u x).length := by simpa using ht1
      simp [List.getElem?_eq_getElem ht]
  | none =>
    cases Ls with
    | nil => exact absurd rfl h3
    | cons L Ls =>
      simp only [List.map_cons, foldl_add_eq]
      congr 1
      have : dissOf L + (Ls.map dissOf).sum = wDiss ((List.replicate (L :: Ls).length (1 : ℝ)).zip (L :: Ls)) := by
        unfold wDiss
        rw [List.length_cons, List.replicate_succ, List.zip_cons_cons, List.map_cons, List.sum_cons]
        congr 1
        · simp
        · congr 1
          apply List.ext_getElem
          · simp
          · intro i h1 h2
            simp
      rw [this]
      apply List.ext_getElem <;> simp

/-- **C38** With Lindblad operators (and Hermitian Hamiltonians) the generator of every time step applied to a
vectorised matrix is the vectorised right hand side of the master equation. -/
theorem c38_generator (p : LPar n) (Ls : List (Matrix n n ℂ)) (times : List ℝ) (u x : Pulse)
    (hL : p.Lindblads Ls times u x) (hne : times ≠ []) (hd : p.drift.length = times.length)
    (hrow : ∀ row ∈ u, row.length = p.ctrl.length)
    (hdH : ∀ H ∈ p.drift, H.IsHermitian) (hcH : ∀ H ∈ p.ctrl, H.IsHermitian) :
    ∃ g, p.gens times u x = .ok g ∧ g.length = times.length ∧
      ∀ (t : Nat) (H₀ : Matrix n n ℂ) (row : List ℝ), p.drift[t]? = some H₀ → u[t]? = some row →
        ∃ G, g[t]? = some G ∧ ∀ ρ : Matrix n n ℂ, G *ᵥ vec ρ =
          vec (master (hamiltonian H₀ p.ctrl row) ((weightsAt p Ls u x t).zip Ls) ρ) := by
  have hgl : (schroedGens p.drift p.ctrl u).length = times.length := by rw [schroedGens_length, hd]
  have hgne : schroedGens p.drift p.ctrl u ≠ [] := by
    intro h
    rw [h] at hgl
    exact hne (List.length_eq_zero_iff.mp hgl.symm)
  refine ⟨List.zipWith supGen (schroedGens p.drift p.ctrl u)
    ((List.range times.length).map fun t => wDiss ((weightsAt p Ls u x t).zip Ls)), ?_, by simp [hgl], ?_⟩
  · unfold LPar.gens lindGens
    rw [calcDiss_lindblad p Ls times u x hL]
    simp only [bind, Except.bind]
    rw [if_neg hgne, if_neg (by simp [hgl])]
  · intro t H₀ row hH hrow'
    have ht : t < times.length := by
      rw [← hd]; exact (List.getElem?_eq_some_iff.mp hH).1
    have hG := schroedGens_getElem p.drift p.ctrl u t H₀ row hH hrow' (hrow row (List.mem_of_getElem? hrow'))
    refine ⟨supGen ((-Complex.I) • hamiltonian H₀ p.ctrl row) (wDiss ((weightsAt p Ls u x t).zip Ls)), ?_, fun ρ => ?_⟩
    · rw [List.getElem?_zipWith, hG]
      simp [List.getElem?_range ht]
    · rw [supGen_mulVec _ _ (hamiltonian_isHermitian _ (hdH _ (List.mem_of_getElem? hH)) hcH), wDiss_mulVec, ← vec_add]
      rfl

/-! ## C39 -/

/-- Undo the vectorisation. -/
def unvec (v : n × n → ℂ) : Matrix n n ℂ := Matrix.of fun i j => v (j, i)

omit [Fintype n] [DecidableEq n] in
theorem vec_unvec (v : n × n → ℂ) : vec (unvec v) = v := rfl

theorem matrix_ext_mulVec {A B : Sup n} (h : ∀ ρ : Matrix n n ℂ, A *ᵥ vec ρ = B *ᵥ vec ρ) : A = B := by
  refine Matrix.ext_of_mulVec_single fun i => ?_
  have := h (unvec (Pi.single i 1))
  rwa [vec_unvec] at this

/-- A super operator that preserves the trace and maps Hermitian matrices to Hermitian matrices. -/
def Physical (P : Sup n) : Prop :=
  ∀ ρ : Matrix n n ℂ, ∃ ρ' : Matrix n n ℂ, P *ᵥ vec ρ = vec ρ' ∧ ρ'.trace = ρ.trace ∧ (ρ.IsHermitian → ρ'.IsHermitian)

theorem trace_master (H : Matrix n n ℂ) (ws : List (ℝ × Matrix n n ℂ)) (ρ : Matrix n n ℂ) : (master H ws ρ).trace = 0 := by
  unfold master
  rw [Matrix.trace_add, Matrix.trace_smul, Matrix.trace_sub, Matrix.trace_mul_comm H, sub_self, smul_zero, zero_add,
    Matrix.trace_list_sum]
  refine List.sum_eq_zero fun x hx => ?_
  simp only [List.map_map, List.mem_map, Function.comp] at hx
  obtain ⟨p, -, rfl⟩ := hx
  rw [Matrix.trace_smul, Matrix.trace_sub, Matrix.trace_smul, Matrix.trace_add, Matrix.trace_mul_comm ρ,
    Matrix.trace_mul_cycle p.2 ρ]
  simp only [smul_eq_mul]
  ring

theorem conjTranspose_master {H : Matrix n n ℂ} (hH : H.IsHermitian) (ws : List (ℝ × Matrix n n ℂ))
    (ρ : Matrix n n ℂ) : (master H ws ρ)ᴴ = master H ws ρᴴ := by
  unfold master
  rw [Matrix.conjTranspose_add, Matrix.conjTranspose_list_sum]
  congr 1
  · simp only [Matrix.conjTranspose_smul, Matrix.conjTranspose_sub, Matrix.conjTranspose_mul, hH.eq]
    simp [smul_sub, sub_eq_add_neg, add_comm]
  · rw [List.map_map]
    congr 1
    refine List.map_congr_left fun p _ => ?_
    simp [Matrix.conjTranspose_smul, Matrix.conjTranspose_sub, Matrix.conjTranspose_mul, Matrix.conjTranspose_add,
      Matrix.mul_assoc, add_comm]

/-- The vectorised identity in every row: computes traces. -/
def traceRows : Sup n := Matrix.of fun _ j => vec (1 : Matrix n n ℂ) j

theorem traceRows_mulVec (ρ : Matrix n n ℂ) (i : n × n) : (traceRows *ᵥ vec ρ) i = ρ.trace := by
  show vec (1 : Matrix n n ℂ) ⬝ᵥ vec ρ = _
  rw [vec_dotProduct_vec, Matrix.transpose_one, Matrix.one_mul]

/-- Transposition as super operator. -/
def swapSup : Sup n := Matrix.of fun p q => if p = q.swap then 1 else 0

theorem swapSup_mulVec (v : n × n → ℂ) (p : n × n) : (swapSup *ᵥ v) p = v p.swap := by
  show (∑ q, (if p = q.swap then (1 : ℂ) else 0) * v q) = _
  rw [Finset.sum_eq_single p.swap]
  · simp
  · intro q _ hq
    rw [if_neg, zero_mul]
    rintro rfl
    exact hq (by simp)
  · simp

theorem swapSup_star (ρ : Matrix n n ℂ) : swapSup *ᵥ star (vec ρ) = vec ρᴴ := by
  ext p
  rw [swapSup_mulVec]
  rfl

theorem conjM_mulVec (A : Sup n) (v : n × n → ℂ) : conjM A *ᵥ star v = star (A *ᵥ v) := by
  ext p
  simp [Matrix.mulVec, dotProduct, conjM]

theorem conjM_smul (c : ℂ) (A : Sup n) : conjM (c • A) = star c • conjM A := by
  ext i j
  simp [conjM]

omit [Fintype n] [DecidableEq n] in
theorem conjM_real_smul (c : ℝ) (A : Matrix n n ℂ) : conjM ((c : ℂ) • A) = (c : ℂ) • conjM A := by
  ext i j
  simp [conjM]

/-- The exponential of a super operator of Lindblad form is physical. -/
theorem physical_exp {G : Sup n} {H : Matrix n n ℂ} (hH : H.IsHermitian) (ws : List (ℝ × Matrix n n ℂ))
    (hG : ∀ ρ, G *ᵥ vec ρ = vec (master H ws ρ)) (σ : ℝ) : Physical (NormedSpace.exp ((σ : ℂ) • G)) := by
  have h1 : traceRows * ((σ : ℂ) • G) = 0 * (traceRows : Sup n) := by
    refine matrix_ext_mulVec fun ρ => ?_
    rw [Matrix.zero_mul, Matrix.zero_mulVec, ← Matrix.mulVec_mulVec, Matrix.smul_mulVec, hG, Matrix.mulVec_smul]
    ext i
    rw [Pi.smul_apply, traceRows_mulVec, trace_master]
    simp
  have h2 : swapSup * conjM ((σ : ℂ) • G) = ((σ : ℂ) • G) * (swapSup : Sup n) := by
    refine matrix_ext_mulVec fun ρ => ?_
    have hs : vec ρ = star (vec (unvec (star (vec ρ)))) := by rw [vec_unvec, star_star]
    rw [hs]
    generalize unvec (star (vec ρ)) = X
    rw [← Matrix.mulVec_mulVec, ← Matrix.mulVec_mulVec, swapSup_star, conjM_smul, Matrix.smul_mulVec,
      Matrix.smul_mulVec, conjM_mulVec, hG, hG, Matrix.mulVec_smul, swapSup_star, conjTranspose_master hH]
    simp
  have e1 := semiconj_exp h1
  have e2 := semiconj_exp h2
  rw [NormedSpace.exp_zero, Matrix.one_mul] at e1
  rw [exp_conjM] at e2
  intro ρ
  refine ⟨unvec (NormedSpace.exp ((σ : ℂ) • G) *ᵥ vec ρ), rfl, ?_, fun hρ => ?_⟩
  · by_cases hn : Nonempty n
    · obtain ⟨i⟩ := hn
      rw [← traceRows_mulVec _ (i, i), ← traceRows_mulVec ρ (i, i), vec_unvec, Matrix.mulVec_mulVec, e1]
    · rw [not_nonempty_iff] at hn
      simp [Matrix.trace]
  · have h3 : swapSup *ᵥ star (NormedSpace.exp ((σ : ℂ) • G) *ᵥ vec ρ) = NormedSpace.exp ((σ : ℂ) • G) *ᵥ vec ρ := by
      rw [← conjM_mulVec, Matrix.mulVec_mulVec, e2, ← Matrix.mulVec_mulVec, swapSup_star, hρ.eq]
    refine vec_inj.mp ?_
    rw [← swapSup_star, vec_unvec, h3]

theorem Physical.one : Physical (1 : Sup n) := fun ρ => ⟨ρ, by simp, rfl, id⟩

theorem Physical.mul {P Q : Sup n} (hP : Physical P) (hQ : Physical Q) : Physical (P * Q) := by
  intro ρ
  obtain ⟨ρ', h1, h2, h3⟩ := hQ ρ
  obtain ⟨ρ'', h4, h5, h6⟩ := hP ρ'
  exact ⟨ρ'', by rw [← Matrix.mulVec_mulVec, h1, h4], by rw [h5, h2], fun h => h6 (h3 h)⟩

theorem isForward_all {init : Sup n} {ps f : List (Sup n)} (h : IsForward init ps f) (hi : Physical init)
    (hp : ∀ P ∈ ps, Physical P) : ∀ F ∈ f, Physical F := by
  obtain ⟨h1, h2, h3⟩ := h
  have key : ∀ i, i ≤ ps.length → ∃ F, f[i]? = some F ∧ Physical F := by
    intro i
    induction i with
    | zero => exact fun _ => ⟨init, h2, hi⟩
    | succ i ih =>
      intro hi'
      obtain ⟨F, e1, e2⟩ := ih (by omega)
      obtain ⟨F', e3, e4⟩ := h3 i (by omega)
      rw [e1] at e3
      cases e3
      exact ⟨_, e4, (hp _ (List.getElem_mem _)).mul e2⟩
  intro F hF
  obtain ⟨i, hi', rfl⟩ := List.getElem_of_mem hF
  obtain ⟨F', e1, e2⟩ := key i (by omega)
  rw [List.getElem?_eq_getElem hi'] at e1
  cases e1
  exact e2

theorem propOf_base (p : LPar n) (hm : p.method = .frechet) (hE : p.L.ExpmOk) (G : Sup n) (σ : ℝ) :
    propOf (p.base []) G σ = NormedSpace.exp ((σ : ℂ) • G) := by
  unfold propOf expProp
  have h1 : (p.base []).method = .frechet := hm
  have h2 : (p.base []).calcDeriv = false := rfl
  rw [h1, h2, if_neg (by simp)]
  exact hE _

theorem traceRun_plain_ok (cfg : Cfg n m) (hc : cfg.calcDeriv = false) (hm : cfg.method ≠ .other) (times : List ℝ)
    (u : Pulse) (g : List (Matrix n n ℂ)) (hg : times.length ≤ g.length) :
    ∃ out, traceRun cfg false times u g = .ok out ∧
      out.1 = ((List.range times.length).map fun t => propOf cfg (g.getD t 0) (times.getD t 0)).map some := by
  unfold traceRun
  rw [if_neg (by simp)]
  have := cellsP_ok (withGens cfg g) hm times u hg
  unfold cellsP at this
  change fill none ((List.range times.length).map (stepPlain cfg g times)) = _ at this
  rw [this]
  refine ⟨_, rfl, ?_⟩
  simp [propOf, hc, withGens]

theorem LPar.run_ok (p : LPar n) (hm : p.method ≠ .other) (times : List ℝ) (u x : Pulse) (g : List (Sup n))
    (hg : p.gens times u x = .ok g) (hl : g.length = times.length) :
    ∃ ps f : List (Sup n), p.props times u x = .ok (ps.map some) ∧ p.fwd times u x = .ok f ∧
      ps = ((List.range times.length).map fun t => propOf (p.base []) (g.getD t 0) (times.getD t 0)) ∧
      IsForward p.init ps f := by
  obtain ⟨out, h1, h2⟩ := traceRun_plain_ok (p.base []) rfl hm times u g (by omega)
  have hp : p.props times u x = .ok (((List.range times.length).map fun t =>
      propOf (p.base []) (g.getD t 0) (times.getD t 0)).map some) := by
    unfold LPar.props
    rw [hg]
    simp only [bind, Except.bind]
    rw [h1]
    simp only [h2]
    rfl
  refine ⟨_, _, hp, ?_, rfl, fwdLoop_isForward _ p.init⟩
  unfold LPar.fwd
  rw [hp]
  simp only [bind, Except.bind]
  unfold traceFwd
  rw [show (p.base []).init = p.init from rfl]
  simp only [(fwdLoop_some _ p.init).1]
  rfl

/-- **C39** With Lindblad operators, Hermitian Hamiltonians and the default method (and prefactors of any sign), every
propagator and every forward propagator preserves the trace and Hermiticity. -/
theorem c39_trace_hermitian (p : LPar n) (Ls : List (Matrix n n ℂ)) (times : List ℝ) (u x : Pulse)
    (hL : p.Lindblads Ls times u x) (hne : times ≠ []) (hd : p.drift.length = times.length)
    (hu : u.length = times.length) (hrow : ∀ row ∈ u, row.length = p.ctrl.length)
    (hdH : ∀ H ∈ p.drift, H.IsHermitian) (hcH : ∀ H ∈ p.ctrl, H.IsHermitian)
    (hm : p.method = .frechet) (hE : p.L.ExpmOk) (hi : p.init = 1) :
    ∃ ps f : List (Sup n), p.props times u x = .ok (ps.map some) ∧ p.fwd times u x = .ok f ∧
      ps.length = times.length ∧ f.length = times.length + 1 ∧ (∀ P ∈ ps, Physical P) ∧ ∀ F ∈ f, Physical F := by
  obtain ⟨g, hg, hl, hG⟩ := c38_generator p Ls times u x hL hne hd hrow hdH hcH
  obtain ⟨ps, f, h1, h2, h3, h4⟩ := p.run_ok (by rw [hm]; simp) times u x g hg hl
  have hP : ∀ P ∈ ps, Physical P := by
    intro P hP
    rw [h3] at hP
    obtain ⟨t, ht, rfl⟩ := List.mem_map.mp hP
    have ht' := List.mem_range.mp ht
    have h5 : t < p.drift.length := by omega
    have h6 : t < u.length := by omega
    obtain ⟨G, e1, e2⟩ := hG t _ _ (List.getElem?_eq_getElem h5) (List.getElem?_eq_getElem h6)
    rw [propOf_base p hm hE, List.getD_eq_getElem?_getD (l := g), e1]
    exact physical_exp (hamiltonian_isHermitian _ (hdH _ (List.getElem_mem _)) hcH) _ e2 _
  have hlp : ps.length = times.length := by rw [h3]; simp
  refine ⟨ps, f, h1, h2, hlp, by rw [h4.1, hlp], hP, isForward_all h4 (by rw [hi]; exact Physical.one) hP⟩

/-! ## C40 -/

theorem unitarySup_mul (U V : Matrix n n ℂ) : unitarySup (U * V) = unitarySup U * unitarySup V := by
  unfold unitarySup
  rw [conjM_mul, Matrix.mul_kronecker_mul]

theorem isForward_unique {k l : Type} [Fintype k] {init : Matrix k l ℂ} {ps : List (Matrix k k ℂ)} {f : List (Matrix k l ℂ)}
    (h : IsForward init ps f) : ∀ i, i ≤ ps.length → f[i]? = some ((ps.take i).foldl (fun F P => P * F) init) := by
  obtain ⟨h1, h2, h3⟩ := h
  intro i
  induction i with
  | zero => intro _; simpa using h2
  | succ i ih =>
    intro hi
    obtain ⟨F, e1, e2⟩ := h3 i (by omega)
    rw [ih (by omega)] at e1
    cases e1
    rw [e2, List.take_add_one, List.foldl_append, List.getElem?_eq_getElem (show i < ps.length by omega)]
    simp

theorem foldl_unitarySup (us : List (Matrix n n ℂ)) (U : Matrix n n ℂ) :
    (us.map unitarySup).foldl (fun F P => P * F) (unitarySup U) = unitarySup (us.foldl (fun F P => P * F) U) := by
  induction us generalizing U with
  | nil => rfl
  | cons V us ih => rw [List.map_cons, List.foldl_cons, List.foldl_cons, ← unitarySup_mul, ih]

theorem propOf_frechet (p : SPar n n) (hm : p.method = .frechet) (hE : p.L.ExpmOk) (G : Matrix n n ℂ) (σ : ℝ) :
    propOf p.cfg G σ = NormedSpace.exp ((σ : ℂ) • G) := by
  unfold propOf dexpProp expProp
  have : p.cfg.method = .frechet := hm
  rw [this, ← hE]
  split <;> rfl

/-- **C40** If the dissipation vanishes, the propagators and forward propagators of the Lindblad solver are
`conj(U) ⊗ U` of those of the Schroedinger solver with the same Hamiltonians, times and amplitudes. -/
theorem c40_coherent (p : LPar n) (q : SPar n n) (τ : List ℝ) (y u x : Pulse)
    (hdr : p.drift = q.drift) (hct : p.ctrl = q.ctrl) (hv : q.Valid τ)
    (hu : ampsOf q.cfg τ y = some u) (hne : q.xTimes τ ≠ [])
    (hdiss : (calcDiss p.diss (q.xTimes τ) u x).1 = .ok (List.replicate (q.xTimes τ).length 0))
    (hm : p.method = .frechet) (hE : p.L.ExpmOk) (hm' : q.method = .frechet) (hE' : q.L.ExpmOk)
    (hi : p.init = 1) (hi' : q.init = 1) :
    ∃ us f : List (Matrix n n ℂ), (readProps q.cfg (fresh q.cfg τ y)).1 = .ok (us.map some) ∧
      (readFwd q.cfg (fresh q.cfg τ y)).1 = .ok f ∧ us.length = (q.xTimes τ).length ∧
      p.props (q.xTimes τ) u x = .ok ((us.map unitarySup).map some) ∧
      p.fwd (q.xTimes τ) u x = .ok (f.map unitarySup) := by
  obtain ⟨us, e1, e2, e3⟩ := c27_readable q τ hv y u hu
  obtain ⟨hlen, hrow⟩ := ampsOf_shape q.cfg τ y u hu
  have hlen' : u.length = (q.xTimes τ).length := hlen
  have hrow' : ∀ row ∈ u, row.length = q.ctrl.length := hrow
  have hlp : us.length = (q.xTimes τ).length := e2
  have hps : us ≠ [] := by
    rintro rfl
    exact hne (List.length_eq_zero_iff.mp hlp.symm)
  obtain ⟨-, f, r, e5, -, e7, -⟩ := c27_propagation q.cfg τ y ((setPars_none_iff _ _ _).mpr ⟨u, hu⟩) us hps e1
  have hgl : (schroedGens p.drift p.ctrl u).length = (q.xTimes τ).length := by rw [schroedGens_length, hdr, hv.2.1]
  have hgne : schroedGens p.drift p.ctrl u ≠ [] := by
    intro h
    rw [h] at hgl
    exact hne (List.length_eq_zero_iff.mp hgl.symm)
  have hg : p.gens (q.xTimes τ) u x = .ok ((schroedGens p.drift p.ctrl u).map fun G => supGen G 0) := by
    unfold LPar.gens lindGens
    rw [hdiss]
    simp only [bind, Except.bind]
    rw [if_neg hgne, if_neg (by simp [hgl])]
    congr 1
    apply List.ext_getElem
    · simp [hgl]
    · intro i h1 h2
      simp
  obtain ⟨ps, F, h1, h2, h3, h4⟩ := p.run_ok (by rw [hm]; simp) (q.xTimes τ) u x _ hg (by simp [hgl])
  have hpu : ps = us.map unitarySup := by
    apply List.ext_getElem?
    intro t
    by_cases ht : t < (q.xTimes τ).length
    · have h5 : t < q.drift.length := by rw [hv.2.1]; exact ht
      have h6 : t < u.length := by omega
      have hG := schroedGens_getElem p.drift p.ctrl u t _ _ (by rw [hdr]; exact List.getElem?_eq_getElem h5)
        (List.getElem?_eq_getElem h6) (by rw [hct]; exact hrow' _ (List.getElem_mem h6))
      have hU := e3 t _ _ _ (List.getElem?_eq_getElem h5) (List.getElem?_eq_getElem h6) (List.getElem?_eq_getElem ht)
      rw [h3, List.getElem?_map, List.getElem?_map, hU, List.getElem?_range ht]
      simp only [Option.map_some]
      rw [List.getD_eq_getElem?_getD, List.getElem?_map, hG, List.getD_eq_getElem _ _ ht, propOf_base p hm hE,
        propOf_frechet q hm' hE']
      simp only [Option.map_some, Option.getD_some]
      unfold supGen unitarySup
      rw [add_zero, smul_add, ← Matrix.kronecker_smul, ← Matrix.smul_kronecker, exp_kron_sum, ← exp_conjM, hct, conjM_real_smul]
    · rw [List.getElem?_eq_none (by rw [h3]; simp; omega), List.getElem?_eq_none (by simp; omega)]
  refine ⟨us, f, e1, e5, hlp, by rw [← hpu]; exact h1, ?_⟩
  rw [h2]
  congr 1
  apply List.ext_getElem?
  intro i
  have hFl : F.length = us.length + 1 := by rw [h4.1, hpu, List.length_map]
  by_cases hi2 : i ≤ us.length
  · rw [isForward_unique h4 i (by rw [hpu, List.length_map]; exact hi2), List.getElem?_map, isForward_unique e7 i hi2,
      hpu, ← List.map_take, hi, show q.cfg.init = q.init from rfl, hi', Option.map_some, ← foldl_unitarySup]
    congr 2
    unfold unitarySup
    rw [show conjM (1 : Matrix n n ℂ) = 1 by rw [conjM_eq]; simp, Matrix.one_kronecker_one]
  · rw [List.getElem?_eq_none (by omega), List.getElem?_eq_none (by rw [List.length_map, e7.1]; omega)]

/-! ## C41 -/

theorem matDeriv_supGen (H₀ H : Matrix n n ℂ) (hH : H.IsHermitian) {E : ℝ → Sup n} {E' : Sup n} (hE : MatDeriv E E' 0) :
    MatDeriv (fun x : ℝ => supGen ((-Complex.I) • (H₀ + (x : ℂ) • H)) (E x)) (E' + ctrlSup H) 0 := by
  have hx : HasDerivAt (fun x : ℝ => (x : ℂ)) 1 0 := Complex.ofRealCLM.hasDerivAt
  have hlin : MatDeriv (fun x : ℝ => supGen ((-Complex.I) • H₀) 0 + (x : ℂ) • ctrlSup H) (ctrlSup H) 0 := by
    intro i j
    have := (hx.mul_const (ctrlSup H i j)).const_add (supGen ((-Complex.I) • H₀) 0 i j)
    simpa using this
  refine (hE.add hlin).congr (fun x => ?_) rfl
  have hc : conjM H = Hᵀ := by rw [conjM_eq, hH.eq]
  ext ⟨i, k⟩ ⟨j, l⟩
  have hc' : (starRingEnd ℂ) (H i j) = H j i := congrFun (congrFun hc i) j
  simp only [supGen, ctrlSup, Matrix.add_apply, Matrix.sub_apply, Matrix.smul_apply, kroneckerMap_apply, conjM,
    Matrix.map_apply, Matrix.transpose_apply, smul_eq_mul, map_mul, map_neg, map_add, Complex.conj_I,
    Complex.conj_ofReal, hc', Matrix.zero_apply]
  ring

/-- The generator and its direction, given the derivative of the dissipation. -/
theorem lindblad_direction (p : LPar n) (times : List ℝ) (u : Pulse) (X : ℝ → Pulse) (t c : Nat)
    (ht : t < times.length) (hu : u.length = times.length) (hd : p.drift.length = times.length)
    (hrow : ∀ row ∈ u, row.length = p.ctrl.length) (H : Matrix n n ℂ) (hc : p.ctrl[c]? = some H) (hH : H.IsHermitian)
    (ds : ℝ → List (Sup n)) (E : ℝ → Sup n) (E' : Sup n)
    (h1 : ∀ x, (calcDiss p.diss times (bump u t c x) (X x)).1 = .ok (ds x)) (h2 : ∀ x, (ds x).length = times.length)
    (h3 : ∀ x, (ds x)[t]? = some (E x)) (h4 : MatDeriv E E' 0) :
    ∃ G : ℝ → Sup n, (∀ x, ∃ g, p.gens times (bump u t c x) (X x) = .ok g ∧ g[t]? = some (G x)) ∧
      MatDeriv G (E' + ctrlSup H) 0 := by
  have ht1 : t < p.drift.length := by omega
  have ht2 : t < u.length := by omega
  have hr := hrow _ (List.getElem_mem ht2)
  have hc' : c < u[t].length := by
    rw [hr]; exact (List.getElem?_eq_some_iff.mp hc).1
  refine ⟨_, fun x => ⟨List.zipWith supGen (schroedGens p.drift p.ctrl (bump u t c x)) (ds x), ?_, ?_⟩,
    matDeriv_supGen (hamiltonian p.drift[t] p.ctrl u[t]) H hH h4⟩
  · unfold LPar.gens lindGens
    rw [h1]
    simp only [bind, Except.bind]
    have hl : (schroedGens p.drift p.ctrl (bump u t c x)).length = times.length := by rw [schroedGens_length, hd]
    rw [if_neg, if_neg (by rw [hl, h2]; simp)]
    intro h
    rw [h] at hl
    simp at hl
    omega
  · have hG := schroedGens_getElem p.drift p.ctrl (bump u t c x) t _ (u[t].modify c (· + x))
      (List.getElem?_eq_getElem ht1) (by simp [bump, List.getElem?_modify, List.getElem?_eq_getElem ht2]) (by simp [hr])
    rw [List.getElem?_zipWith, hG, h3]
    simp only
    rw [hamiltonian_bump _ _ _ c x H hc' hc]

theorem wDiss_deriv (Ls : List (Matrix n n ℂ)) (w : ℝ → List ℝ) (w' : List ℝ)
    (hw : ∀ x, (w x).length = Ls.length) (hw' : w'.length = Ls.length)
    (h : ∀ l < Ls.length, HasDerivAt (fun x => (w x).getD l 0) (w'.getD l 0) 0) :
    MatDeriv (fun x => wDiss ((w x).zip Ls)) (wDiss (w'.zip Ls)) 0 := by
  induction Ls generalizing w w' with
  | nil => simpa [wDiss] using MatDeriv.const (0 : Sup n) 0
  | cons L Ls ih =>
    cases w' with
    | nil => simp at hw'
    | cons b w' =>
      have hsplit : ∀ x, w x = (w x).getD 0 0 :: (w x).tail := by
        intro x
        have := hw x
        cases h : w x with
        | nil => rw [h] at this; simp at this
        | cons a l => simp
      have ih' := ih (fun x => (w x).tail) w' (fun x => by simp [hw x]) (by simpa using hw') (by
        intro l hl
        have := h (l + 1) (by simpa using hl)
        simpa [List.getD_eq_getElem?_getD] using this)
      have h0 := h 0 (by simp)
      have h0' : MatDeriv (fun x => (((w x).getD 0 0 : ℝ) : ℂ) • dissOf L) ((b : ℂ) • dissOf L) 0 := by
        intro i j
        have := (h0.ofReal_comp).mul_const (dissOf L i j)
        simpa using this
      refine (h0'.add ih').congr (fun x => ?_) ?_
      · conv_rhs => rw [hsplit x]
        simp [wDiss]
      · simp [wDiss]

/-- **C41** for the Lindblad solver with Lindblad operators: without prefactor function the direction `[t][c]` is the
derivative of generator `t` with respect to amplitude `c` of step `t`. -/
theorem c41_lindblad_constant (p : LPar n) (Ls : List (Matrix n n ℂ)) (times : List ℝ) (u : Pulse) (X : ℝ → Pulse)
    (t c : Nat) (ht : t < times.length) (hu : u.length = times.length) (hd : p.drift.length = times.length)
    (hrow : ∀ row ∈ u, row.length = p.ctrl.length) (hc : c < p.ctrl.length) (hcH : ∀ H ∈ p.ctrl, H.IsHermitian)
    (hL : p.diss.lindblad = some Ls) (hL' : Ls ≠ []) (hs : p.diss.supOp = none) (hp : p.diss.prefactor = none)
    (hp' : p.diss.prefactorDeriv = none) (hs' : p.diss.supOpDeriv = none) :
    ∃ (G : ℝ → Sup n) (D : Sup n) (d : List (List (Sup n))),
      (∀ x, ∃ g, p.gens times (bump u t c x) (X x) = .ok g ∧ g[t]? = some (G x)) ∧
      lindDirs p.ctrl p.diss times u (X 0) = .ok d ∧ (d[t]?.bind fun row => row[c]?) = some D ∧ MatDeriv G D 0 := by
  have hLs : ∀ x, p.Lindblads Ls times (bump u t c x) (X x) := fun x => ⟨hs, hL, hL', by simp [hp]⟩
  obtain ⟨G, h1, h2⟩ := lindblad_direction p times u X t c ht hu hd hrow _ (List.getElem?_eq_getElem hc)
    (hcH _ (List.getElem_mem hc)) _ (fun _ => wDiss ((List.replicate Ls.length 1).zip Ls)) 0
    (fun x => calcDiss_lindblad p Ls times _ _ (hLs x)) (by simp)
    (fun x => by simp [weightsAt, hp, List.getElem?_replicate, ht]) (MatDeriv.const _ _)
  refine ⟨G, _, List.replicate times.length (p.ctrl.map ctrlSup), h1, ?_, ?_, h2⟩
  · simp [lindDirs, calcDissDeriv, hp', hs', bind, Except.bind, pure, Except.pure, List.ne_nil_of_length_pos (Nat.zero_lt_of_lt hc)]
  · simp [List.getElem?_replicate, ht, List.getElem?_eq_getElem hc]

/-- **C41** for the Lindblad solver with prefactor functions: if `f'` returns the derivatives of the prefactors (in the
order time, control, Lindblad operator), the direction `[t][c]` is the derivative of generator `t`.  The transferred
parameters `X x` may depend on the amplitude too. -/
theorem c41_lindblad_prefactor (p : LPar n) (Ls : List (Matrix n n ℂ)) (times : List ℝ) (u : Pulse) (X : ℝ → Pulse)
    (t c : Nat) (ht : t < times.length) (hu : u.length = times.length) (hd : p.drift.length = times.length)
    (hrow : ∀ row ∈ u, row.length = p.ctrl.length) (hc : c < p.ctrl.length) (hcH : ∀ H ∈ p.ctrl, H.IsHermitian)
    (hL : p.diss.lindblad = some Ls) (hL' : Ls ≠ []) (hs : p.diss.supOp = none) (hs' : p.diss.supOpDeriv = none)
    (f : Pulse → Pulse → List (List ℝ)) (f' : Pulse → Pulse → List (List (List ℝ)))
    (hp : p.diss.prefactor = some f) (hp' : p.diss.prefactorDeriv = some f')
    (hf : ∀ v z, (f v z).length = times.length ∧ ∀ row ∈ f v z, row.length = Ls.length)
    (hf' : ∀ v z, (f' v z).length = times.length ∧ ∀ rows ∈ f' v z, rows.length = p.ctrl.length ∧
      ∀ row ∈ rows, row.length = Ls.length)
    (hder : ∀ l < Ls.length, HasDerivAt (fun x => ((f (bump u t c x) (X x)).getD t []).getD l 0)
      ((((f' u (X 0)).getD t []).getD c []).getD l 0) 0) :
    ∃ (G : ℝ → Sup n) (D : Sup n) (d : List (List (Sup n))),
      (∀ x, ∃ g, p.gens times (bump u t c x) (X x) = .ok g ∧ g[t]? = some (G x)) ∧
      lindDirs p.ctrl p.diss times u (X 0) = .ok d ∧ (d[t]?.bind fun row => row[c]?) = some D ∧ MatDeriv G D 0 := by
  have hLs : ∀ x, p.Lindblads Ls times (bump u t c x) (X x) := fun x => ⟨hs, hL, hL', fun f₁ h => by
    rw [hp] at h; cases h; exact hf _ _⟩
  have hrowlen : ∀ x, ((f (bump u t c x) (X x)).getD t []).length = Ls.length := by
    intro x
    have h1 := hf (bump u t c x) (X x)
    rw [List.getD_eq_getElem _ _ (by omega)]
    exact h1.2 _ (List.getElem_mem _)
  obtain ⟨hfl, hfr⟩ := hf' u (X 0)
  have ht' : t < (f' u (X 0)).length := by omega
  have hcl := hfr _ (List.getElem_mem ht')
  have hc' : c < (f' u (X 0))[t].length := by omega
  obtain ⟨G, h1, h2⟩ := lindblad_direction p times u X t c ht hu hd hrow _ (List.getElem?_eq_getElem hc)
    (hcH _ (List.getElem_mem hc)) _ (fun x => wDiss (((f (bump u t c x) (X x)).getD t []).zip Ls)) _
    (fun x => calcDiss_lindblad p Ls times _ _ (hLs x)) (by simp)
    (fun x => by simp [List.getElem?_range ht, weightsAt, hp])
    (wDiss_deriv Ls _ ((f' u (X 0))[t][c]) hrowlen (hcl.2 _ (List.getElem_mem hc')) (by
      intro l hl
      have := hder l hl
      rwa [List.getD_eq_getElem (f' u (X 0)) _ ht', List.getD_eq_getElem _ _ hc'] at this))
  refine ⟨G, _, ((f' u (X 0)).map fun rows => rows.map fun row => wDiss (row.zip Ls)).map fun row =>
    List.zipWith (fun D C => D + C) row (p.ctrl.map ctrlSup), h1, ?_, ?_, h2⟩
  · unfold lindDirs calcDissDeriv
    rw [hs', hp', constDiss_lindblad p.diss Ls hL hL']
    simp only [bind, Except.bind]
    rw [if_neg (by omega : ¬ p.ctrl.length = 0), allOk_map (f' u (X 0)) _ (fun rows => rows.map fun row => wDiss (row.zip Ls))]
    · rfl
    · intro rows hrows
      rw [allOk_map rows _ (fun row => wDiss (row.zip Ls))]
      exact fun row hr => weighted_eq Ls row hL' ((hfr rows hrows).2 row hr)
  · simp [List.getElem?_eq_getElem ht', List.getElem?_zipWith, List.getElem?_eq_getElem hc', List.getElem?_eq_getElem hc]

/-- **C41** for the Lindblad solver with functions for the whole dissipation super operator. -/
theorem c41_lindblad_function (p : LPar n) (times : List ℝ) (u : Pulse) (X : ℝ → Pulse)
    (t c : Nat) (ht : t < times.length) (hu : u.length = times.length) (hd : p.drift.length = times.length)
    (hrow : ∀ row ∈ u, row.length = p.ctrl.length) (hc : c < p.ctrl.length) (hcH : ∀ H ∈ p.ctrl, H.IsHermitian)
    (f : Pulse → Pulse → List (Sup n)) (f' : Pulse → Pulse → List (List (Sup n)))
    (hs : p.diss.supOp = some f) (hs' : p.diss.supOpDeriv = some f') (hf : ∀ v z, (f v z).length = times.length)
    (E' : Sup n) (hE' : ((f' u (X 0))[t]?.bind fun row => row[c]?) = some E')
    (hder : MatDeriv (fun x => (f (bump u t c x) (X x)).getD t 0) E' 0) :
    ∃ (G : ℝ → Sup n) (D : Sup n) (d : List (List (Sup n))),
      (∀ x, ∃ g, p.gens times (bump u t c x) (X x) = .ok g ∧ g[t]? = some (G x)) ∧
      lindDirs p.ctrl p.diss times u (X 0) = .ok d ∧ (d[t]?.bind fun row => row[c]?) = some D ∧ MatDeriv G D 0 := by
  obtain ⟨G, h1, h2⟩ := lindblad_direction p times u X t c ht hu hd hrow _ (List.getElem?_eq_getElem hc)
    (hcH _ (List.getElem_mem hc)) (fun x => f (bump u t c x) (X x)) (fun x => (f (bump u t c x) (X x)).getD t 0) E'
    (fun x => by unfold calcDiss; rw [hs]) (fun x => hf _ _)
    (fun x => by
      have : t < (f (bump u t c x) (X x)).length := by rw [hf]; exact ht
      rw [List.getElem?_eq_getElem this, List.getD_eq_getElem _ _ this]) hder
  obtain ⟨row, e1, e2⟩ := Option.bind_eq_some_iff.mp hE'
  refine ⟨G, _, (f' u (X 0)).map fun row => List.zipWith (fun D C => D + C) row (p.ctrl.map ctrlSup), h1, ?_, ?_, h2⟩
  · simp [lindDirs, calcDissDeriv, hs', bind, Except.bind, pure, Except.pure, List.ne_nil_of_length_pos (Nat.zero_lt_of_lt hc)]
  · simp [e1, e2, List.getElem?_zipWith, List.getElem?_eq_getElem hc]

/-! ## C42 -/

/-- The dissipation of a second solver constructed with the same objects after the first solver has computed its
generator. -/
noncomputable def Diss.after (d : Diss n) (times : List ℝ) (u x : Pulse) : Diss n :=
  { d with initial := (calcDiss d times u x).2 }

/-- **C42** (partial: the full claim holds unless more than one constant super operator is given, see `c42_violated`)
With Lindblad operators, a prefactor function, a super operator function or at most one super operator the
caller's operators are left unchanged, and a second computation with the same objects gives the same result. -/
theorem c42_unchanged_partial (d : Diss n) (times : List ℝ) (u x : Pulse)
    (h : d.lindblad.isSome ∨ d.prefactor.isSome ∨ d.supOp.isSome ∨ ∀ s, d.initial = some s → s.length ≤ 1) :
    (calcDiss d times u x).2 = d.initial ∧
      (calcDiss (d.after times u x) times u x).1 = (calcDiss d times u x).1 := by
  have key : (calcDiss d times u x).2 = d.initial := by
    obtain ⟨i, l, p, pd, s, sd⟩ := d
    unfold calcDiss
    cases s with
    | some f => rfl
    | none =>
      simp only
      cases hc : constDiss (⟨i, l, p, pd, none, sd⟩ : Diss n) with
      | error e => rfl
      | ok S =>
        cases p with
        | some f => rfl
        | none =>
          cases S with
          | nil => rfl
          | cons A rest =>
            cases l with
            | some Ls => rfl
            | none =>
              cases i with
              | none => rfl
              | some L =>
                simp only [constDiss, Except.ok.injEq] at hc
                subst hc
                rcases h with h | h | h | h
                · simp at h
                · simp at h
                · simp at h
                · have := h _ rfl
                  have : rest = [] := by simpa using this
                  subst this
                  rfl
  refine ⟨key, ?_⟩
  unfold Diss.after
  rw [key]

/-- **C42** fails for two or more constant super operators: the first operator of the caller's list becomes the sum of
all, and a second solver given the same list has a different generator. -/
theorem c42_violated (D₁ D₂ : Sup n) (h : D₂ ≠ 0) (u x : Pulse) (τ : ℝ) :
    let d : Diss n := ⟨some [D₁, D₂], none, none, none, none, none⟩
    (calcDiss d [τ] u x).1 = .ok [D₁ + D₂] ∧ (calcDiss d [τ] u x).2 = some [D₁ + D₂, D₂] ∧
      (calcDiss d [τ] u x).2 ≠ d.initial ∧
      (calcDiss (d.after [τ] u x) [τ] u x).1 = .ok [D₁ + D₂ + D₂] ∧
      (calcDiss (d.after [τ] u x) [τ] u x).1 ≠ (calcDiss d [τ] u x).1 := by
  refine ⟨rfl, rfl, ?_, rfl, ?_⟩
  · intro h'
    have h1 : some [D₁ + D₂, D₂] = some [D₁, D₂] := h'
    simp at h1
    exact h h1
  · intro h'
    have h1 : (Except.ok [D₁ + D₂ + D₂] : Except PyErr (List (Sup n))) = .ok [D₁ + D₂] := h'
    simp at h1
    exact h h1

/-! ## Concrete cases -/

/-- A decaying qubit: three steps, two controls, operators `σ₋` and `σ_z`. -/
noncomputable def decayPar (L : Lapack (Fin 2 × Fin 2)) (pre : Option (Pulse → Pulse → List (List ℝ)))
    (pre' : Option (Pulse → Pulse → List (List (List ℝ)))) : LPar (Fin 2) :=
  ⟨L, .frechet, false, 1, [!![1, 0; 0, -1], !![1, 0; 0, -1], !![1, 0; 0, -1]],
    [!![0, 1; 1, 0], !![0, -Complex.I; Complex.I, 0]],
    ⟨none, some [!![0, 1; 0, 0], !![1, 0; 0, -1]], pre, pre', none, none⟩⟩

theorem decay_drift {L : Lapack (Fin 2 × Fin 2)} {pre pre'} : ∀ H ∈ (decayPar L pre pre').drift, H.IsHermitian := by
  intro H hH
  simp [decayPar] at hH
  rw [hH]
  ext i j; fin_cases i <;> fin_cases j <;> simp

theorem decay_ctrl {L : Lapack (Fin 2 × Fin 2)} {pre pre'} : ∀ H ∈ (decayPar L pre pre').ctrl, H.IsHermitian := by
  intro H hH
  simp [decayPar] at hH
  rcases hH with rfl | rfl <;> ext i j <;> fin_cases i <;> fin_cases j <;> simp

/-- Prefactors: the first amplitude and a constant. -/
def decayPre : Pulse → Pulse → List (List ℝ) := fun u _ => (List.range 3).map fun t => [(u.getD t []).getD 0 0, 2]

/-- Their derivatives. -/
def decayPre' : Pulse → Pulse → List (List (List ℝ)) := fun _ _ => List.replicate 3 [[1, 0], [0, 0]]

/-- `c38_generator` and `c39_trace_hermitian` apply. -/
example : ∃ (L : Lapack (Fin 2 × Fin 2)) (ps f : List (Sup (Fin 2))),
    (decayPar L (some decayPre) none).props [1, 2, 3] [[1, 2], [3, 4], [5, 6]] [] = .ok (ps.map some) ∧
    (decayPar L (some decayPre) none).fwd [1, 2, 3] [[1, 2], [3, 4], [5, 6]] [] = .ok f ∧ ps.length = 3 ∧
    (∀ P ∈ ps, Physical P) ∧ ∀ F ∈ f, Physical F := by
  obtain ⟨L, -, -, hE, -⟩ := lapack_exists (Fin 2 × Fin 2)
  obtain ⟨ps, f, h1, h2, h3, -, h5, h6⟩ := c39_trace_hermitian (decayPar L (some decayPre) none)
    [!![0, 1; 0, 0], !![1, 0; 0, -1]] [1, 2, 3] [[1, 2], [3, 4], [5, 6]] []
    ⟨rfl, rfl, by simp, fun f hf => by
      cases hf
      exact ⟨rfl, fun row hrow => by simp only [decayPre, List.mem_map] at hrow; obtain ⟨t, -, rfl⟩ := hrow; rfl⟩⟩
    (by simp) rfl rfl (by simp [decayPar]) decay_drift decay_ctrl rfl hE rfl
  exact ⟨L, ps, f, h1, h2, h3, h5, h6⟩

/-- `c40_coherent` applies: a vanishing dissipation super operator. -/
example : ∃ (L : Lapack (Fin 2)) (L' : Lapack (Fin 2 × Fin 2)) (us : List (Matrix (Fin 2) (Fin 2) ℂ)),
    (readProps (qubitPar L .none true).cfg (fresh (qubitPar L .none true).cfg [1, 2, 3] [[1, 2], [3, 4], [5, 6]])).1 =
      .ok (us.map some) ∧
    (⟨L', .frechet, false, 1, (qubitPar L .none true).drift, (qubitPar L .none true).ctrl,
      ⟨some [0], none, none, none, none, none⟩⟩ : LPar (Fin 2)).props [1, 2, 3] [[1, 2], [3, 4], [5, 6]] [] =
      .ok ((us.map unitarySup).map some) := by
  obtain ⟨L, -, -, hE, -⟩ := lapack_exists (Fin 2)
  obtain ⟨L', -, -, hE', -⟩ := lapack_exists (Fin 2 × Fin 2)
  obtain ⟨us, f, h1, -, -, h4, -⟩ := c40_coherent
    (⟨L', .frechet, false, 1, (qubitPar L .none true).drift, (qubitPar L .none true).ctrl,
      ⟨some [0], none, none, none, none, none⟩⟩ : LPar (Fin 2)) (qubitPar L .none true) [1, 2, 3]
    [[1, 2], [3, 4], [5, 6]] [[1, 2], [3, 4], [5, 6]] [] rfl rfl (qubitPar_valid L _ _)
    (qubitPar_amps L _ _ _ rfl (by simp)) (by simp [qubitPar]) rfl rfl hE' rfl hE rfl rfl
  exact ⟨L, L', us, h1, h4⟩

/-- `c41_lindblad_prefactor` applies: control 0 at time step 1 changes the Hamiltonian and a decay rate. -/
example (L : Lapack (Fin 2 × Fin 2)) : ∃ (G : ℝ → Sup (Fin 2)) (D : Sup (Fin 2)),
    (∀ x, ∃ g, (decayPar L (some decayPre) (some decayPre')).gens [1, 2, 3]
      (bump [[1, 2], [3, 4], [5, 6]] 1 0 x) [] = .ok g ∧ g[1]? = some (G x)) ∧ MatDeriv G D 0 := by
  obtain ⟨G, D, d, h1, -, -, h2⟩ := c41_lindblad_prefactor (decayPar L (some decayPre) (some decayPre'))
    [!![0, 1; 0, 0], !![1, 0; 0, -1]] [1, 2, 3] [[1, 2], [3, 4], [5, 6]] (fun _ => []) 1 0 (by simp) rfl rfl
    (by simp [decayPar]) (by simp [decayPar]) decay_ctrl rfl (by simp) rfl rfl decayPre decayPre' rfl rfl
    (fun v z => ⟨rfl, fun row hrow => by
      simp only [decayPre, List.mem_map] at hrow; obtain ⟨t, -, rfl⟩ := hrow; rfl⟩)
    (fun v z => ⟨rfl, fun rows hrows => by
      rw [List.eq_of_mem_replicate hrows]; exact ⟨rfl, by simp⟩⟩)
    (by
      intro l hl
      have hx : HasDerivAt (fun x : ℝ => 3 + x) 1 0 := (hasDerivAt_id 0).const_add 3
      match l, hl with
      | 0, _ =>
        simp only [decayPre, decayPre', bump]
        simpa [List.range_succ] using hx
      | 1, _ =>
        simp only [decayPre, decayPre', bump]
        simpa [List.range_succ] using hasDerivAt_const (0 : ℝ) (2 : ℝ))
  exact ⟨G, D, h1, h2⟩

/-- `c41_lindblad_constant` applies. -/
example (L : Lapack (Fin 2 × Fin 2)) : ∃ (G : ℝ → Sup (Fin 2)) (D : Sup (Fin 2)),
    (∀ x, ∃ g, (decayPar L none none).gens [1, 2, 3]
      (bump [[1, 2], [3, 4], [5, 6]] 1 0 x) [] = .ok g ∧ g[1]? = some (G x)) ∧ MatDeriv G D 0 := by
  obtain ⟨G, D, d, h1, -, -, h2⟩ := c41_lindblad_constant (decayPar L none none)
    [!![0, 1; 0, 0], !![1, 0; 0, -1]] [1, 2, 3] [[1, 2], [3, 4], [5, 6]] (fun _ => []) 1 0 (by simp) rfl rfl
    (by simp [decayPar]) (by simp [decayPar]) decay_ctrl rfl (by simp) rfl rfl rfl rfl
  exact ⟨G, D, h1, h2⟩

/-- `c42_violated` applies to dephasing and decay. -/
example : dissOf (!![1, 0; 0, -1] : Matrix (Fin 2) (Fin 2) ℂ) ≠ 0 := by
  intro h
  have := congrFun (congrFun h (0, 1)) (0, 1)
  norm_num [dissOf, conjM, Matrix.mul_apply, Fin.sum_univ_two] at this

end
end Verif.Solver
