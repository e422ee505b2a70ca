import Verif.Cost.OpenSubsystems
import Verif.Sim.Covariance

/-!
# C149: units, basis and zero of energy of open systems

The same open system described in other units, in another orthonormal basis and with other zeros of energy, for the `LindbladSolver`
(solver_algorithms.py:1778-2105) and `OperationInfidelity` with super operators (cost_functions.py:1268-1316).
-/

namespace Verif.Cost
open Verif Verif.Operator Verif.Solver Verif.Sim Matrix
open scoped Kronecker

section
variable {n : Type} [Fintype n] [DecidableEq n]

/-! ## Specification -/

/-- The solver `q` describes the same system as `p`: energies and rates are `a` times as large, the basis is changed by `V`. The
rates may be contained in the operators (factor `c`) or in the prefactors. -/
structure OpenRewritten (p q : LPar n) (A : List (Matrix n n ℂ)) (V : Matrix n n ℂ) (a : ℝ) (c : ℂ) : Prop where
  first : p.Local A
  second : q.Local (A.map fun L => c • (V * L * Vᴴ))
  init : q.init = unitarySup V * p.init * unitarySup Vᴴ
  ctrl : q.ctrl = p.ctrl.map (rewrite V a 0)
  rates : ∀ u x : List ℝ, u.length = p.ctrl.length →
    (weightsAt q (A.map fun L => c • (V * L * Vᴴ)) [u] [x] 0).map (Complex.normSq c * ·) = (weightsAt p A [u] [x] 0).map (a * ·)

/-- One time step in the other description, with a constant `e` added to the energies. -/
noncomputable def restep (V : Matrix n n ℂ) (a : ℝ) (s : OpenStep n) (e : ℝ) : OpenStep n := ⟨rewrite V a e s.H, s.τ / a, s.u, s.x⟩

/-! ## Lemmas -/

omit [Fintype n] in
theorem conjM_one : conjM (1 : Matrix n n ℂ) = 1 := by
  ext i j
  rcases eq_or_ne i j with rfl | h
  · simp [conjM]
  · simp [conjM, h]

theorem unitarySup_inv {V : Matrix n n ℂ} (hV : V ∈ Matrix.unitaryGroup n ℂ) :
    unitarySup V * unitarySup Vᴴ = 1 ∧ unitarySup Vᴴ * unitarySup V = 1 := by
  rw [← unitarySup_mul, ← unitarySup_mul, show V * Vᴴ = 1 from Matrix.mem_unitaryGroup_iff.mp hV,
    show Vᴴ * V = 1 from Matrix.mem_unitaryGroup_iff'.mp hV]
  have : unitarySup (1 : Matrix n n ℂ) = 1 := by
    unfold unitarySup
    rw [conjM_one, Matrix.one_kronecker_one]
  exact ⟨this, this⟩

/-- Super operators in the other basis. -/
theorem sup_basis (V : Matrix n n ℂ) (P : Sup n) (ρ : Matrix n n ℂ) :
    (unitarySup V * P * unitarySup Vᴴ) *ᵥ Matrix.vec ρ = unitarySup V *ᵥ (P *ᵥ Matrix.vec (Vᴴ * ρ * V)) := by
  rw [← Matrix.mulVec_mulVec, ← Matrix.mulVec_mulVec, unitarySup_mulVec, Matrix.conjTranspose_conjTranspose]

theorem dissOf_basis {V : Matrix n n ℂ} (hV : V ∈ Matrix.unitaryGroup n ℂ) (L : Matrix n n ℂ) :
    dissOf (V * L * Vᴴ) = unitarySup V * dissOf L * unitarySup Vᴴ := by
  have hV1 : V * Vᴴ = 1 := Matrix.mem_unitaryGroup_iff.mp hV
  have hV2 : Vᴴ * V = 1 := Matrix.mem_unitaryGroup_iff'.mp hV
  refine matrix_ext_mulVec fun ρ => ?_
  rw [sup_basis, dissOf_mulVec, dissOf_mulVec, unitarySup_mulVec]
  congr 1
  have e1 : ∀ X : Matrix n n ℂ, Vᴴ * (V * X) = X := fun X => by rw [← Matrix.mul_assoc, hV2, Matrix.one_mul]
  have e2 : ∀ X : Matrix n n ℂ, V * (Vᴴ * X) = X := fun X => by rw [← Matrix.mul_assoc, hV1, Matrix.one_mul]
  simp only [Matrix.conjTranspose_mul, Matrix.conjTranspose_conjTranspose, Matrix.mul_sub, Matrix.sub_mul, Matrix.mul_smul, Matrix.smul_mul,
    Matrix.mul_add, Matrix.add_mul, Matrix.mul_assoc, e1, e2, hV1, Matrix.mul_one]

theorem supGen_basis {V : Matrix n n ℂ} (hV : V ∈ Matrix.unitaryGroup n ℂ) (a e : ℝ) (H : Matrix n n ℂ) (D : Sup n) :
    supGen ((-Complex.I) • rewrite V a e H) ((a : ℂ) • (unitarySup V * D * unitarySup Vᴴ)) =
      (a : ℂ) • (unitarySup V * supGen ((-Complex.I) • H) D * unitarySup Vᴴ) := by
  have hV1 : V * Vᴴ = 1 := Matrix.mem_unitaryGroup_iff.mp hV
  have hc1 : conjM V * conjM Vᴴ = 1 := by
    rw [← conjM_mul, hV1, conjM_one]
  have h0 : conjM ((-Complex.I) • rewrite V a e H) =
      (a : ℂ) • (conjM V * conjM ((-Complex.I) • H) * conjM Vᴴ) + (Complex.I * e) • (1 : Matrix n n ℂ) := by
    rw [← conjM_mul, ← conjM_mul]
    unfold rewrite
    ext i j
    by_cases h : i = j <;> simp [conjM, h] <;> ring
  have h1 : (-Complex.I) • rewrite V a e H = (a : ℂ) • (V * ((-Complex.I) • H) * Vᴴ) + (-(Complex.I * e)) • (1 : Matrix n n ℂ) := by
    unfold rewrite
    ext i j
    by_cases h : i = j <;> simp [h, mul_add] <;> ring
  unfold supGen
  rw [h0, h1, Matrix.kronecker_add, Matrix.add_kronecker, Matrix.mul_add, Matrix.mul_add, Matrix.add_mul, Matrix.add_mul, smul_add, smul_add]
  have h2 : (a : ℂ) • (unitarySup V * (1 : Matrix n n ℂ) ⊗ₖ ((-Complex.I) • H) * unitarySup Vᴴ) =
      (1 : Matrix n n ℂ) ⊗ₖ ((a : ℂ) • (V * ((-Complex.I) • H) * Vᴴ)) := by
    unfold unitarySup
    rw [← Matrix.mul_kronecker_mul, ← Matrix.mul_kronecker_mul, Matrix.mul_one, hc1, Matrix.kronecker_smul]
  have h3 : (a : ℂ) • (unitarySup V * conjM ((-Complex.I) • H) ⊗ₖ (1 : Matrix n n ℂ) * unitarySup Vᴴ) =
      ((a : ℂ) • (conjM V * conjM ((-Complex.I) • H) * conjM Vᴴ)) ⊗ₖ (1 : Matrix n n ℂ) := by
    unfold unitarySup
    rw [← Matrix.mul_kronecker_mul, ← Matrix.mul_kronecker_mul, Matrix.mul_one, hV1, Matrix.smul_kronecker]
  rw [h2, h3, Matrix.kronecker_smul _ 1 1, Matrix.smul_kronecker _ 1 1, neg_smul (Complex.I * (e : ℂ))]
  abel

theorem wDiss_basis {V : Matrix n n ℂ} (hV : V ∈ Matrix.unitaryGroup n ℂ) (a : ℝ) (c : ℂ) (w w' : List ℝ) (A : List (Matrix n n ℂ))
    (h : w'.map (Complex.normSq c * ·) = w.map (a * ·)) :
    wDiss (w'.zip (A.map fun L => c • (V * L * Vᴴ))) = (a : ℂ) • (unitarySup V * wDiss (w.zip A) * unitarySup Vᴴ) := by
  unfold wDiss
  induction A generalizing w w' with
  | nil => simp
  | cons L A ih =>
    cases w' with
    | nil =>
      cases w with
      | nil => simp
      | cons x w => simp at h
    | cons y w' =>
      cases w with
      | nil => simp at h
      | cons x w =>
        simp only [List.map_cons, List.cons.injEq] at h
        simp only [List.map_cons, List.zip_cons_cons, List.sum_cons]
        rw [ih w w' h.2, dissOf_smul, dissOf_basis hV, Matrix.mul_add, Matrix.add_mul, smul_add, Matrix.mul_smul, Matrix.smul_mul, smul_smul,
          smul_smul]
        congr 2
        rw [← Complex.ofReal_mul, ← Complex.ofReal_mul, ← h.1, mul_comm]

theorem stepProp_basis {p q : LPar n} {A : List (Matrix n n ℂ)} {V : Matrix n n ℂ} {a : ℝ} {c : ℂ} (h : OpenRewritten p q A V a c)
    (hV : V ∈ Matrix.unitaryGroup n ℂ) (ha : a ≠ 0) (s : OpenStep n) (e : ℝ) (hs : s.u.length = p.ctrl.length) :
    stepProp q (A.map fun L => c • (V * L * Vᴴ)) (restep V a s e) = unitarySup V * stepProp p A s * unitarySup Vᴴ := by
  unfold stepProp Solver.stepGen restep
  simp only
  rw [h.ctrl, rewrite_hamiltonian, wDiss_basis hV a c _ _ A (h.rates s.u s.x hs), supGen_basis hV, smul_smul]
  have hca : ((s.τ / a : ℝ) : ℂ) * (a : ℂ) = (s.τ : ℂ) := by
    rw [← Complex.ofReal_mul, div_mul_cancel₀ _ ha]
  rw [hca, ← Matrix.smul_mul, ← Matrix.mul_smul]
  exact Matrix.exp_units_conj ⟨unitarySup V, unitarySup Vᴴ, (unitarySup_inv hV).1, (unitarySup_inv hV).2⟩ _

/-- Tables with the same entries. -/
theorem rect_ext {g h : List (List ℝ)} {N c : Nat} (hg : Rect g N c) (hh : Rect h N c)
    (he : ∀ t j, t < N → j < c → entry g t j = entry h t j) : g = h := by
  refine List.ext_getElem (hg.1.trans hh.1.symm) fun t h1 h2 => ?_
  refine List.ext_getElem ((hg.2 _ (List.getElem_mem h1)).trans (hh.2 _ (List.getElem_mem h2)).symm) fun j h3 h4 => ?_
  have := he t j (by rw [← hg.1]; exact h1) (by rw [← hg.2 _ (List.getElem_mem h1)]; exact h3)
  simpa [entry, h1, h2, h3, h4] using this

/-! ## C149 -/

/-- **C149** The forward propagators are those of the other description, in its basis. -/
theorem c149_forward (p q : LPar n) {A : List (Matrix n n ℂ)} {V : Matrix n n ℂ} {a : ℝ} {c : ℂ} (h : OpenRewritten p q A V a c)
    (hV : V ∈ Matrix.unitaryGroup n ℂ) (ha : a ≠ 0) (hp : p.method = .frechet ∧ p.L.ExpmOk) (hq : q.method = .frechet ∧ q.L.ExpmOk)
    (S : List (OpenStep n)) (e : List ℝ) (he : e.length = S.length) (hS : S ≠ []) (hu : ∀ s ∈ S, s.u.length = p.ctrl.length) :
    ∃ f f', openRun p S = .ok f ∧ openRun q (List.zipWith (restep V a) S e) = .ok f' ∧ f.length = S.length + 1 ∧
      f' = f.map fun F => unitarySup V * F * unitarySup Vᴴ := by
  obtain ⟨f, a1, a2⟩ := openRun_ok p h.first hp.1 hp.2 S hS hu
  have hl : (List.zipWith (restep V a) S e).length = S.length := by simp [he]
  obtain ⟨f', b1, b2⟩ := openRun_ok q h.second hq.1 hq.2 (List.zipWith (restep V a) S e) (by
    intro h0
    rw [h0] at hl
    exact hS (List.length_eq_zero_iff.mp hl.symm)) (by
    intro s hs
    obtain ⟨i, hi, rfl⟩ := List.getElem_of_mem hs
    simp only [List.getElem_zipWith, restep, h.ctrl, List.length_map]
    exact hu _ (List.getElem_mem _))
  have hstep : (List.zipWith (restep V a) S e).map (stepProp q (A.map fun L => c • (V * L * Vᴴ))) =
      (S.map (stepProp p A)).map fun P => unitarySup V * P * unitarySup Vᴴ := by
    refine List.ext_getElem (by simp [he]) fun i h1 h2 => ?_
    simp only [List.getElem_map, List.getElem_zipWith]
    exact stepProp_basis h hV ha _ _ (hu _ (List.getElem_mem _))
  rw [hstep, h.init] at b2
  have l1 : f.length = S.length + 1 := by rw [a2.1]; simp
  refine ⟨f, f', a1, b1, l1, ?_⟩
  have hf : IsForward (unitarySup V * p.init * unitarySup Vᴴ) ((S.map (stepProp p A)).map fun P => unitarySup V * P * unitarySup Vᴴ)
      (f.map fun F => unitarySup V * F * unitarySup Vᴴ) := by
    refine ⟨by simp [l1], by simp [a2.2.1], fun i hi => ?_⟩
    obtain ⟨F, e1, e2⟩ := a2.2.2 i (by simpa using hi)
    refine ⟨_, by rw [List.getElem?_map, e1]; rfl, ?_⟩
    rw [List.getElem?_map, e2]
    simp only [Option.map_some, List.getElem_map]
    congr 1
    have := (unitarySup_inv hV).2
    have e0 : ∀ P : Sup n, unitarySup V * (P * F) * unitarySup Vᴴ = unitarySup V * P * unitarySup Vᴴ * (unitarySup V * F * unitarySup Vᴴ) := by
      intro P
      calc _ = unitarySup V * P * 1 * F * unitarySup Vᴴ := by simp [Matrix.mul_assoc]
        _ = _ := by rw [← this]; simp only [Matrix.mul_assoc]
    exact e0 _
  refine List.ext_getElem? fun i => ?_
  by_cases hi : i ≤ ((S.map (stepProp p A)).map fun P => unitarySup V * P * unitarySup Vᴴ).length
  · rw [isForward_unique b2 i hi, isForward_unique hf i hi]
  · rw [List.getElem?_eq_none (by rw [b2.1]; omega), List.getElem?_eq_none (by rw [hf.1]; omega)]

/-- **C149** The states are those of the other description, in its basis. -/
theorem c149_states (p q : LPar n) {A : List (Matrix n n ℂ)} {V : Matrix n n ℂ} {a : ℝ} {c : ℂ} (h : OpenRewritten p q A V a c)
    (hV : V ∈ Matrix.unitaryGroup n ℂ) (ha : a ≠ 0) (hp : p.method = .frechet ∧ p.L.ExpmOk) (hq : q.method = .frechet ∧ q.L.ExpmOk)
    (S : List (OpenStep n)) (e : List ℝ) (he : e.length = S.length) (hS : S ≠ []) (hu : ∀ s ∈ S, s.u.length = p.ctrl.length) :
    ∃ f f', openRun p S = .ok f ∧ openRun q (List.zipWith (restep V a) S e) = .ok f' ∧ f.length = S.length + 1 ∧ f'.length = S.length + 1 ∧
      ∀ (i : Nat), i ≤ S.length → ∀ ρ, stateAt f' i (V * ρ * Vᴴ) = V * stateAt f i ρ * Vᴴ := by
  obtain ⟨f, f', h1, h2, h3, rfl⟩ := c149_forward p q h hV ha hp hq S e he hS hu
  refine ⟨f, _, h1, h2, h3, by simp [h3], fun i hi ρ => ?_⟩
  have hV2 : Vᴴ * V = 1 := Matrix.mem_unitaryGroup_iff'.mp hV
  unfold stateAt
  rw [List.getD_eq_getElem _ _ (by simp [h3]; omega), List.getD_eq_getElem _ _ (by omega), List.getElem_map, sup_basis]
  have : Vᴴ * (V * ρ * Vᴴ) * V = ρ := by
    calc _ = (Vᴴ * V) * ρ * (Vᴴ * V) := by simp only [Matrix.mul_assoc]
      _ = ρ := by rw [hV2, Matrix.one_mul, Matrix.mul_one]
  rw [this, ← vec_unvec (f[i] *ᵥ Matrix.vec ρ), unitarySup_mulVec]
  rfl

/-- **C149** The infidelity does not depend on the description. -/
theorem c149_costs (p q : LPar n) {A : List (Matrix n n ℂ)} {V : Matrix n n ℂ} {a : ℝ} {c : ℂ} (h : OpenRewritten p q A V a c)
    (hV : V ∈ Matrix.unitaryGroup n ℂ) (ha : a ≠ 0) (hp : p.method = .frechet ∧ p.L.ExpmOk) (hq : q.method = .frechet ∧ q.L.ExpmOk)
    (S : List (OpenStep n)) (e : List ℝ) (he : e.length = S.length) (hS : S ≠ []) (hu : ∀ s ∈ S, s.u.length = p.ctrl.length)
    (T : Matrix n n ℂ) :
    ∃ x, openCost p S T = .ok x ∧ openCost q (List.zipWith (restep V a) S e) (V * T * Vᴴ) = .ok x := by
  obtain ⟨f, f', h1, h2, h3, rfl⟩ := c149_forward p q h hV ha hp hq S e he hS hu
  obtain ⟨P, hP⟩ : ∃ P, f.getLast? = some P := by
    rw [List.getLast?_eq_getElem?]
    exact ⟨_, List.getElem?_eq_getElem (by omega)⟩
  refine ⟨_, openCost_last p S T f P h1 hP, ?_⟩
  rw [openCost_last q _ (V * T * Vᴴ) _ _ h2 (by rw [List.getLast?_map, hP]; rfl)]
  have : (unitarySup (V * T * Vᴴ)ᴴ * (unitarySup V * P * unitarySup Vᴴ)).trace = (unitarySup Tᴴ * P).trace := by
    have hc : (V * T * Vᴴ)ᴴ = V * Tᴴ * Vᴴ := by
      rw [Matrix.conjTranspose_mul, Matrix.conjTranspose_mul, Matrix.conjTranspose_conjTranspose, Matrix.mul_assoc]
    rw [hc, unitarySup_mul, unitarySup_mul]
    calc _ = (unitarySup V * (unitarySup Tᴴ * (unitarySup Vᴴ * unitarySup V) * P * unitarySup Vᴴ)).trace := by simp only [Matrix.mul_assoc]
      _ = _ := by
        rw [Matrix.trace_mul_comm, (unitarySup_inv hV).2, Matrix.mul_one, Matrix.mul_assoc, (unitarySup_inv hV).2, Matrix.mul_one]
  rw [this]

/-- **C149** The gradient does not depend on the description. -/
theorem c149_gradient (p q : LPar n) {A : List (Matrix n n ℂ)} {V : Matrix n n ℂ} {a : ℝ} {c : ℂ} (h : OpenRewritten p q A V a c)
    (hV : V ∈ Matrix.unitaryGroup n ℂ) (ha : a ≠ 0) (S : List (OpenStep n)) (e : List ℝ) (he : e.length = S.length)
    (hp : Differentiates p S) (hq : Differentiates q (List.zipWith (restep V a) S e)) (hu : ∀ s ∈ S, s.u.length = p.ctrl.length)
    (T : Matrix n n ℂ) :
    ∃ g, openGrad p S T = .ok g ∧ openGrad q (List.zipWith (restep V a) S e) (V * T * Vᴴ) = .ok g := by
  have hS : S ≠ [] := fun h0 => hp.1.steps (by rw [h0]; rfl)
  have hl : (List.zipWith (restep V a) S e).length = S.length := by simp [he]
  have hc : q.ctrl.length = p.ctrl.length := by rw [h.ctrl, List.length_map]
  obtain ⟨g, a1, a2, a3⟩ := open_gradient hp hu T
  obtain ⟨g', b1, b2, b3⟩ := open_gradient hq (by
    intro s hs
    obtain ⟨i, hi, rfl⟩ := List.getElem_of_mem hs
    simp only [List.getElem_zipWith, restep, h.ctrl, List.length_map]
    exact hu _ (List.getElem_mem _)) (V * T * Vᴴ)
  refine ⟨g, a1, ?_⟩
  rw [b1]
  congr 1
  rw [hl, hc] at b2
  refine rect_ext b2 a2 fun t j ht hj => ?_
  obtain ⟨x, f, x1, x2, x3⟩ := a3 t j ht hj
  obtain ⟨y, f', y1, y2, y3⟩ := b3 t j (by omega) (by omega)
  have hf : f' = f := by
    funext s
    have hb : bumpStep (List.zipWith (restep V a) S e) t j s = List.zipWith (restep V a) (bumpStep S t j s) e := by
      unfold bumpStep
      refine List.ext_getElem (by simp) fun i h1 h2 => ?_
      simp only [List.getElem_modify, List.getElem_zipWith]
      split <;> rfl
    obtain ⟨z, z1, z2⟩ := c149_costs p q h hV ha ⟨hp.1.method, hp.1.expm⟩ ⟨hq.1.method, hq.1.expm⟩ (bumpStep S t j s) e (by simp [bumpStep, he])
      (by
        intro h1
        have := congrArg List.length h1
        simp only [bumpStep, List.length_modify, List.length_nil] at this
        exact hS (List.length_eq_zero_iff.mp this)) (bumpStep_row hu t j s) T
    rw [x2 s] at z1
    rw [← hb, y2 s] at z2
    exact Except.ok.inj (z2.trans z1.symm)
  rw [x1, y1, x3.unique (hf ▸ y3)]

namespace Ex149
open Ex148

/-- Another basis of a qubit. -/
noncomputable def V : Matrix (Fin 2) (Fin 2) ℂ := !![(3 / 5 : ℝ), (4 / 5 : ℝ) * Complex.I; (4 / 5 : ℝ) * Complex.I, (3 / 5 : ℝ)]

theorem V_unitary : V ∈ Matrix.unitaryGroup (Fin 2) ℂ := by
  rw [Matrix.mem_unitaryGroup_iff, Matrix.star_eq_conjTranspose]
  ext i j
  fin_cases i <;> fin_cases j <;> apply Complex.ext <;>
    simp only [V, Matrix.mul_apply, Fin.sum_univ_two, Matrix.conjTranspose_apply] <;> simp <;> norm_num

/-- The decaying qubit of `Ex148` in this basis, with a unit of time which is four times as long: the rate is contained in the operator. -/
noncomputable def other (L : Lapack (Fin 2 × Fin 2)) : LPar (Fin 2) :=
  ⟨L, .frechet, false, unitarySup V * 1 * unitarySup Vᴴ, [], [!![0, 1; 1, 0]].map (rewrite V 4 0),
    ⟨none, some ([!![0, 1; 0, 0]].map fun A => (2 : ℂ) • (V * A * Vᴴ)), none, none, none, none⟩⟩

theorem same (L : Lapack (Fin 2 × Fin 2)) : OpenRewritten (Ex148.one L) (other L) [!![0, 1; 0, 0]] V 4 2 :=
  ⟨⟨rfl, rfl, by simp, fun f hf => by cases hf⟩, ⟨rfl, rfl, by simp, fun f hf => by cases hf⟩, rfl, rfl, fun _ _ _ => by
    simp [weightsAt, Ex148.one, other]; norm_num⟩

example : ∃ (L : Lapack (Fin 2 × Fin 2)) (x : ℝ) (g : List (List ℝ)), openCost (Ex148.one L) steps₁ !![0, 1; 1, 0] = .ok x ∧
    openCost (other L) (List.zipWith (restep V 4) steps₁ [7, -1]) (V * !![0, 1; 1, 0] * Vᴴ) = .ok x ∧
    openGrad (Ex148.one L) steps₁ !![0, 1; 1, 0] = .ok g ∧
    openGrad (other L) (List.zipWith (restep V 4) steps₁ [7, -1]) (V * !![0, 1; 1, 0] * Vᴴ) = .ok g := by
  obtain ⟨L, -, -, hE, hF⟩ := lapack_exists (Fin 2 × Fin 2)
  have hX : (!![0, 1; 1, 0] : Matrix (Fin 2) (Fin 2) ℂ).IsHermitian := by
    ext i j; fin_cases i <;> fin_cases j <;> simp
  have hu : ∀ s ∈ steps₁, s.u.length = (Ex148.one L).ctrl.length := by simp [steps₁, Ex148.one]
  obtain ⟨x, x1, x2⟩ := c149_costs (Ex148.one L) (other L) (same L) V_unitary (by norm_num) ⟨rfl, hE⟩ ⟨rfl, hE⟩ steps₁ [7, -1] rfl
    (by simp [steps₁]) hu !![0, 1; 1, 0]
  obtain ⟨g, g1, g2⟩ := c149_gradient (Ex148.one L) (other L) (same L) V_unitary (by norm_num) steps₁ [7, -1] rfl
    ⟨⟨by simp [Ex148.one], rfl, by simp [steps₁], rfl, hE, hF, by simp [Ex148.one, hX]⟩, _, .lindblad _ (by simp) none rfl rfl⟩
    ⟨⟨by simp [other], rfl, by simp [steps₁], rfl, hE, hF, by simp [other, rewrite_hermitian hX]⟩, _, .lindblad _ (by simp) none rfl rfl⟩
    hu !![0, 1; 1, 0]
  exact ⟨L, x, g, x1, x2, g1, g2⟩

end Ex149

end
end Verif.Cost
