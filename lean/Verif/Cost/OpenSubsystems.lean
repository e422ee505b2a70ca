import Verif.Sim.Subsystems
import Verif.Solver.OpenCompose
import Verif.Cost.Gauge

/-!
# C148: open subsystems which do not interact

Two subsystems, each with its own Hamiltonians, controls and dissipation, simulated by one `LindbladSolver`
(solver_algorithms.py:1778-2105, the model is in `Solver/Lindblad.lean`) or by two.
-/

namespace Verif.Cost
open Verif Verif.Operator Verif.Solver Verif.Sim Matrix
open scoped Kronecker

section
variable {n k : Type} [Fintype n] [DecidableEq n] [Fintype k] [DecidableEq k]

/-! ## Specification -/

/-- The rows of a density matrix of both subsystems are pairs, and so are the columns; grouped by subsystem instead. -/
abbrev bySystem (n k : Type) : (n × k) × (n × k) ≃ (n × n) × (k × k) := Equiv.prodProdProdComm n k n k

/-- Two super operators, each acting on its own subsystem. -/
def both (P : Sup n) (Q : Sup k) : Sup (n × k) := (P ⊗ₖ Q).submatrix (bySystem n k) (bySystem n k)

/-- The Lindblad operators of both subsystems. -/
def bothOps (A : List (Matrix n n ℂ)) (B : List (Matrix k k ℂ)) : List (Matrix (n × k) (n × k) ℂ) :=
  A.map (fun A => A ⊗ₖ (1 : Matrix k k ℂ)) ++ B.map fun B => (1 : Matrix n n ℂ) ⊗ₖ B

/-- The solver `p` describes the two subsystems of `a` and `b`, without interaction and with independent dissipation: every rate is that
of the subsystem of its Lindblad operator. -/
structure OpenApart (p : LPar (n × k)) (a : LPar n) (b : LPar k) (A : List (Matrix n n ℂ)) (B : List (Matrix k k ℂ)) : Prop where
  first : a.Local A
  second : b.Local B
  pair : p.Local (bothOps A B)
  init : p.init = both a.init b.init
  ctrl : p.ctrl = bothOps a.ctrl b.ctrl
  rates : ∀ u v x y : List ℝ, u.length = a.ctrl.length → v.length = b.ctrl.length →
    weightsAt p (bothOps A B) [u ++ v] [x ++ y] 0 = weightsAt a A [u] [x] 0 ++ weightsAt b B [v] [y] 0

/-- Both subsystems during one time step. -/
def bothSteps (s : OpenStep n) (t : OpenStep k) : OpenStep (n × k) :=
  ⟨s.H ⊗ₖ (1 : Matrix k k ℂ) + (1 : Matrix n n ℂ) ⊗ₖ t.H, s.τ, s.u ++ t.u, s.x ++ t.x⟩

/-- `OperationInfidelity.costs()` for a list of steps. -/
noncomputable def openCost (p : LPar n) (S : List (OpenStep n)) (T : Matrix n n ℂ) : Except PyErr ℝ :=
  lindCosts none T { p with drift := S.map OpenStep.H } (S.map OpenStep.τ) (S.map OpenStep.u) (S.map OpenStep.x)

/-- `OperationInfidelity.grad()` for a list of steps. -/
noncomputable def openGrad (p : LPar n) (S : List (OpenStep n)) (T : Matrix n n ℂ) : Except PyErr (List (List ℝ)) :=
  lindGrad none T { p with drift := S.map OpenStep.H } (S.map OpenStep.τ) (S.map OpenStep.u) (S.map OpenStep.x)

/-- What the gradient requires: the exact derivative of exponentials, and the dissipation with its derivative. -/
def Differentiates (p : LPar n) (S : List (OpenStep n)) : Prop :=
  LExact { p with drift := S.map OpenStep.H } (S.map OpenStep.τ) ∧
    ∃ E, GivenDiss { p with drift := S.map OpenStep.H } (S.map OpenStep.τ).length E

/-! ## Lemmas -/

omit [Fintype n] [DecidableEq n] [Fintype k] [DecidableEq k] in
theorem both_kron (A B : Matrix n n ℂ) (C D : Matrix k k ℂ) : (A ⊗ₖ C) ⊗ₖ (B ⊗ₖ D) = both (A ⊗ₖ B) (C ⊗ₖ D) := by
  ext ⟨⟨a, b⟩, ⟨c, d⟩⟩ ⟨⟨e, f⟩, ⟨g, h⟩⟩
  simp only [both, Matrix.kroneckerMap_apply, Matrix.submatrix_apply, Equiv.prodProdProdComm_apply]
  ring

omit [Fintype n] [DecidableEq n] [Fintype k] [DecidableEq k] in
theorem both_add_left (P P' : Sup n) (Q : Sup k) : both (P + P') Q = both P Q + both P' Q := by
  unfold both; rw [Matrix.add_kronecker]; rfl

omit [Fintype n] [DecidableEq n] [Fintype k] [DecidableEq k] in
theorem both_add_right (P : Sup n) (Q Q' : Sup k) : both P (Q + Q') = both P Q + both P Q' := by
  unfold both; rw [Matrix.kronecker_add]; rfl

omit [Fintype n] [DecidableEq n] [Fintype k] [DecidableEq k] in
theorem both_smul_left (c : ℂ) (P : Sup n) (Q : Sup k) : both (c • P) Q = c • both P Q := by
  unfold both; rw [Matrix.smul_kronecker]; rfl

omit [Fintype n] [DecidableEq n] [Fintype k] [DecidableEq k] in
theorem both_smul_right (c : ℂ) (P : Sup n) (Q : Sup k) : both P (c • Q) = c • both P Q := by
  unfold both; rw [Matrix.kronecker_smul]; rfl

omit [Fintype n] [DecidableEq n] [Fintype k] [DecidableEq k] in
theorem both_sub_left (P P' : Sup n) (Q : Sup k) : both (P - P') Q = both P Q - both P' Q := by
  ext i j; simp [both, sub_mul]

omit [Fintype n] [DecidableEq n] [Fintype k] [DecidableEq k] in
theorem both_sub_right (P : Sup n) (Q Q' : Sup k) : both P (Q - Q') = both P Q - both P Q' := by
  ext i j; simp [both, mul_sub]

omit [DecidableEq n] [DecidableEq k] in
theorem both_mul (P P' : Sup n) (Q Q' : Sup k) : both P Q * both P' Q' = both (P * P') (Q * Q') := by
  unfold both
  rw [Matrix.submatrix_mul_equiv, Matrix.mul_kronecker_mul]

omit [DecidableEq n] [DecidableEq k] in
theorem trace_both (P : Sup n) (Q : Sup k) : (both P Q).trace = P.trace * Q.trace := by
  rw [← Matrix.trace_kronecker]
  exact Equiv.sum_comp (bySystem n k) fun i => (P ⊗ₖ Q) i i

open scoped Matrix.Norms.Operator in
theorem exp_both (P : Sup n) (Q : Sup k) :
    NormedSpace.exp (both P 1 + both 1 Q) = both (NormedSpace.exp P) (NormedSpace.exp Q) := by
  have h : NormedSpace.exp ((P ⊗ₖ (1 : Sup k) + (1 : Sup n) ⊗ₖ Q).submatrix (bySystem n k) (bySystem n k)) =
      (NormedSpace.exp (P ⊗ₖ (1 : Sup k) + (1 : Sup n) ⊗ₖ Q)).submatrix (bySystem n k) (bySystem n k) := by
    let : NormedAlgebra ℚ (Matrix ((n × n) × (k × k)) ((n × n) × (k × k)) ℂ) := NormedAlgebra.restrictScalars ℚ ℂ _
    let : NormedAlgebra ℚ (Matrix ((n × k) × (n × k)) ((n × k) × (n × k)) ℂ) := NormedAlgebra.restrictScalars ℚ ℂ _
    refine (NormedSpace.map_exp (Matrix.reindexAlgEquiv ℂ ℂ (bySystem n k).symm).toRingEquiv.toRingHom ?_
      (P ⊗ₖ (1 : Sup k) + (1 : Sup n) ⊗ₖ Q)).symm
    exact continuous_matrix fun i j => continuous_id.matrix_elem _ _
  rw [exp_apart] at h
  exact h

omit [Fintype n] [DecidableEq n] [Fintype k] in
theorem conjM_first (L : Matrix n n ℂ) : conjM (L ⊗ₖ (1 : Matrix k k ℂ)) = conjM L ⊗ₖ (1 : Matrix k k ℂ) := by
  ext ⟨a, b⟩ ⟨c, d⟩
  by_cases h : b = d <;> simp [conjM, h]

omit [Fintype n] [Fintype k] [DecidableEq k] in
theorem conjM_second (L : Matrix k k ℂ) : conjM ((1 : Matrix n n ℂ) ⊗ₖ L) = (1 : Matrix n n ℂ) ⊗ₖ conjM L := by
  ext ⟨a, b⟩ ⟨c, d⟩
  by_cases h : a = c <;> simp [conjM, h]

theorem dissOf_first (L : Matrix n n ℂ) : dissOf (L ⊗ₖ (1 : Matrix k k ℂ)) = both (dissOf L) 1 := by
  have hc := conjM_first (k := k) L
  have ht : (L ⊗ₖ (1 : Matrix k k ℂ))ᵀ = Lᵀ ⊗ₖ (1 : Matrix k k ℂ) := by
    ext ⟨a, b⟩ ⟨c, d⟩
    simp [Matrix.one_apply, eq_comm]
  unfold dissOf
  rw [hc, ht, Matrix.conjTranspose_kronecker, Matrix.conjTranspose_one, ← Matrix.mul_kronecker_mul, ← Matrix.mul_kronecker_mul, Matrix.one_mul,
    both_kron, show (1 : Matrix (n × k) (n × k) ℂ) = (1 : Matrix n n ℂ) ⊗ₖ (1 : Matrix k k ℂ) from Matrix.one_kronecker_one.symm, both_kron,
    both_kron, both_sub_left, both_sub_left, both_smul_left, both_smul_left, Matrix.one_kronecker_one]

theorem dissOf_second (L : Matrix k k ℂ) : dissOf ((1 : Matrix n n ℂ) ⊗ₖ L) = both 1 (dissOf L) := by
  have hc := conjM_second (n := n) L
  have ht : ((1 : Matrix n n ℂ) ⊗ₖ L)ᵀ = (1 : Matrix n n ℂ) ⊗ₖ Lᵀ := by
    ext ⟨a, b⟩ ⟨c, d⟩
    simp [Matrix.one_apply, eq_comm]
  unfold dissOf
  rw [hc, ht, Matrix.conjTranspose_kronecker, Matrix.conjTranspose_one, ← Matrix.mul_kronecker_mul, ← Matrix.mul_kronecker_mul, Matrix.one_mul,
    both_kron, show (1 : Matrix (n × k) (n × k) ℂ) = (1 : Matrix n n ℂ) ⊗ₖ (1 : Matrix k k ℂ) from Matrix.one_kronecker_one.symm, both_kron,
    both_kron, both_sub_right, both_sub_right, both_smul_right, both_smul_right, Matrix.one_kronecker_one]

omit [Fintype n] [Fintype k] in
theorem supGen_both (G : Matrix n n ℂ) (K : Matrix k k ℂ) (P : Sup n) (Q : Sup k) :
    supGen (G ⊗ₖ (1 : Matrix k k ℂ) + (1 : Matrix n n ℂ) ⊗ₖ K) (both P 1 + both 1 Q) = both (supGen G P) 1 + both 1 (supGen K Q) := by
  have hc : conjM (G ⊗ₖ (1 : Matrix k k ℂ) + (1 : Matrix n n ℂ) ⊗ₖ K) = conjM G ⊗ₖ (1 : Matrix k k ℂ) + (1 : Matrix n n ℂ) ⊗ₖ conjM K := by
    rw [← conjM_first, ← conjM_second]
    ext i j
    simp [conjM]
  unfold supGen
  rw [hc, show (1 : Matrix (n × k) (n × k) ℂ) = (1 : Matrix n n ℂ) ⊗ₖ (1 : Matrix k k ℂ) from Matrix.one_kronecker_one.symm,
    Matrix.kronecker_add, Matrix.add_kronecker, both_kron, both_kron, both_kron, both_kron, both_add_left, both_add_left, both_add_right,
    both_add_right, Matrix.one_kronecker_one, Matrix.one_kronecker_one]
  abel

theorem wDiss_both (w v : List ℝ) (A : List (Matrix n n ℂ)) (B : List (Matrix k k ℂ)) (hw : w.length = A.length) :
    wDiss ((w ++ v).zip (bothOps A B)) = both (wDiss (w.zip A)) 1 + both 1 (wDiss (v.zip B)) := by
  have h1 : ∀ (w : List ℝ) (A : List (Matrix n n ℂ)),
      wDiss (w.zip (A.map fun A => A ⊗ₖ (1 : Matrix k k ℂ))) = both (wDiss (w.zip A)) (1 : Sup k) := by
    intro w A
    induction w generalizing A with
    | nil => ext i j; simp [wDiss, both]
    | cons a w ih =>
      cases A with
      | nil => ext i j; simp [wDiss, both]
      | cons M A =>
        have := ih A
        unfold wDiss at this ⊢
        simp only [List.map_cons, List.zip_cons_cons, List.sum_cons, this, dissOf_first, both_add_left, both_smul_left]
  have h2 : ∀ (w : List ℝ) (B : List (Matrix k k ℂ)),
      wDiss (w.zip (B.map fun B => (1 : Matrix n n ℂ) ⊗ₖ B)) = both (1 : Sup n) (wDiss (w.zip B)) := by
    intro w B
    induction w generalizing B with
    | nil => ext i j; simp [wDiss, both]
    | cons a w ih =>
      cases B with
      | nil => ext i j; simp [wDiss, both]
      | cons M B =>
        have := ih B
        unfold wDiss at this ⊢
        simp only [List.map_cons, List.zip_cons_cons, List.sum_cons, this, dissOf_second, both_add_right, both_smul_right]
  have h3 : ∀ x y : List (ℝ × Matrix (n × k) (n × k) ℂ), wDiss (x ++ y) = wDiss x + wDiss y := by
    intro x y
    simp [wDiss]
  unfold bothOps
  rw [List.zip_append (by simpa using hw), h3, h1, h2]

omit [Fintype n] [DecidableEq n] in
theorem weightsAt_length {p : LPar n} {Ls : List (Matrix n n ℂ)} (h : p.Local Ls) (u x : List ℝ) :
    (weightsAt p Ls [u] [x] 0).length = Ls.length := by
  unfold weightsAt
  cases hp : p.diss.prefactor with
  | none => simp
  | some f =>
    obtain ⟨φ, h1, h2⟩ := h.2.2.2 f hp
    simp [h1, h2]

theorem stepProp_both {p : LPar (n × k)} {a : LPar n} {b : LPar k} {A : List (Matrix n n ℂ)} {B : List (Matrix k k ℂ)}
    (h : OpenApart p a b A B) (s : OpenStep n) (t : OpenStep k) (hs : s.u.length = a.ctrl.length) (ht : t.u.length = b.ctrl.length)
    (hτ : s.τ = t.τ) : stepProp p (bothOps A B) (bothSteps s t) = both (stepProp a A s) (stepProp b B t) := by
  unfold stepProp Solver.stepGen bothSteps
  simp only
  rw [h.rates _ _ _ _ hs ht, wDiss_both _ _ _ _ (weightsAt_length h.first _ _), h.ctrl]
  unfold bothOps
  rw [hamiltonian_apart _ _ _ _ _ _ hs, smul_add, ← Matrix.smul_kronecker, ← Matrix.kronecker_smul, supGen_both, smul_add, ← both_smul_left,
    ← both_smul_right, exp_both, hτ]

omit [DecidableEq n] [DecidableEq k] in
theorem forward_both {iA : Sup n} {iB : Sup k} {pA fA} {pB fB} (hA : IsForward iA pA fA) (hB : IsForward iB pB fB)
    (hl : pA.length = pB.length) : IsForward (both iA iB) (List.zipWith both pA pB) (List.zipWith both fA fB) := by
  refine ⟨by simp [hA.1, hB.1, hl], by simp [List.getElem?_zipWith, hA.2.1, hB.2.1], fun i hi => ?_⟩
  simp only [List.length_zipWith, lt_inf_iff] at hi
  obtain ⟨F, a1, a2⟩ := hA.2.2 i hi.1
  obtain ⟨G, b1, b2⟩ := hB.2.2 i hi.2
  refine ⟨both F G, by simp [List.getElem?_zipWith, a1, b1], ?_⟩
  simp [List.getElem?_zipWith, a2, b2, both_mul]

/-- A super operator which commutes with taking the adjoint. -/
def Flips (P : Sup n) : Prop := ∀ i j, P i.swap j.swap = star (P i j)

omit [Fintype n] [DecidableEq n] in
theorem flips_unitarySup (U : Matrix n n ℂ) : Flips (unitarySup U) := by
  rintro ⟨a, b⟩ ⟨c, d⟩
  simp [unitarySup, conjM, mul_comm]

omit [Fintype n] in
theorem flips_one : Flips (1 : Sup n) := by
  rintro ⟨a, b⟩ ⟨c, d⟩
  by_cases h1 : a = c <;> by_cases h2 : b = d <;> simp [Matrix.one_apply, h1, h2]

omit [DecidableEq n] in
theorem Flips.mul {P Q : Sup n} (hP : Flips P) (hQ : Flips Q) : Flips (P * Q) := by
  intro i j
  rw [Matrix.mul_apply, Matrix.mul_apply, star_sum, ← Equiv.sum_comp (Equiv.prodComm n n)]
  refine Finset.sum_congr rfl fun x _ => ?_
  rw [star_mul', ← hP i x, ← hQ x j]
  rfl

theorem Flips.conj {P : Sup n} (h : Flips P) : swapSup * P = conjM P * swapSup := by
  have h1 : ∀ (A : Sup n) (i j : n × n), ((swapSup : Sup n) * A) i j = A i.swap j := by
    intro A i j
    rw [Matrix.mul_apply, Finset.sum_eq_single i.swap]
    · simp [swapSup]
    · intro x _ hx
      rw [swapSup, Matrix.of_apply, if_neg, zero_mul]
      rintro rfl
      exact hx (by simp)
    · simp
  have h2 : ∀ (A : Sup n) (i j : n × n), (A * (swapSup : Sup n)) i j = A i j.swap := by
    intro A i j
    rw [Matrix.mul_apply, Finset.sum_eq_single j.swap]
    · simp [swapSup]
    · intro x _ hx
      rw [swapSup, Matrix.of_apply, if_neg hx, mul_zero]
    · simp
  ext i j
  rw [h1, h2]
  have := h i j.swap
  rw [Prod.swap_swap] at this
  exact this

theorem flips_of_conj {P : Sup n} (h : swapSup * P = conjM P * swapSup) : Flips P := by
  intro i j
  have := congrFun (congrFun h i) j.swap
  rw [Matrix.mul_apply, Matrix.mul_apply, Finset.sum_eq_single i.swap, Finset.sum_eq_single j] at this
  · simpa [swapSup, conjM] using this
  · intro x _ hx
    rw [swapSup, Matrix.of_apply, if_neg (by simpa using hx), mul_zero]
  · simp
  · intro x _ hx
    rw [swapSup, Matrix.of_apply, if_neg, zero_mul]
    rintro rfl
    exact hx (by simp)
  · simp

theorem Flips.exp {P : Sup n} (h : Flips P) : Flips (NormedSpace.exp P) := by
  refine flips_of_conj ?_
  rw [← exp_conjM]
  exact semiconj_exp h.conj

omit [Fintype n] [DecidableEq n] in
theorem Flips.add {P Q : Sup n} (hP : Flips P) (hQ : Flips Q) : Flips (P + Q) := by
  intro i j
  rw [Matrix.add_apply, Matrix.add_apply, hP, hQ, star_add]

omit [Fintype n] [DecidableEq n] in
theorem Flips.smul (c : ℝ) {P : Sup n} (hP : Flips P) : Flips ((c : ℂ) • P) := by
  intro i j
  rw [Matrix.smul_apply, Matrix.smul_apply, hP, smul_eq_mul, smul_eq_mul, star_mul', Complex.star_def, Complex.conj_ofReal]

omit [Fintype n] in
theorem flips_left_right (A : Matrix n n ℂ) : Flips ((1 : Matrix n n ℂ) ⊗ₖ A + conjM A ⊗ₖ (1 : Matrix n n ℂ)) := by
  rintro ⟨a, b⟩ ⟨c, d⟩
  by_cases h1 : a = c <;> by_cases h2 : b = d <;> simp [conjM, h1, h2, add_comm]

theorem flips_dissOf (L : Matrix n n ℂ) : Flips (dissOf L) := by
  have hc : Lᵀ * conjM L = conjM (Lᴴ * L) := by
    rw [conjM_mul]
    congr 1
    ext i j
    simp [conjM]
  have : dissOf L = unitarySup L + ((-(1 / 2) : ℝ) : ℂ) •
      ((1 : Matrix n n ℂ) ⊗ₖ (Lᴴ * L) + conjM (Lᴴ * L) ⊗ₖ (1 : Matrix n n ℂ)) := by
    unfold dissOf unitarySup
    rw [hc]
    push_cast
    rw [smul_add, neg_smul, neg_smul]
    abel
  rw [this]
  exact (flips_unitarySup L).add ((flips_left_right _).smul _)

theorem flips_wDiss (ws : List (ℝ × Matrix n n ℂ)) : Flips (wDiss ws) := by
  unfold wDiss
  induction ws with
  | nil => intro i j; simp
  | cons w ws ih =>
    rw [List.map_cons, List.sum_cons]
    exact ((flips_dissOf w.2).smul w.1).add ih

theorem flips_stepProp (p : LPar n) (Ls : List (Matrix n n ℂ)) (s : OpenStep n) : Flips (stepProp p Ls s) :=
  (((flips_left_right _).add (flips_wDiss _)).smul s.τ).exp

omit [DecidableEq n] in
theorem flips_forward {i : Sup n} {ps f} (h : IsForward i ps f) (hi : Flips i) (hp : ∀ P ∈ ps, Flips P) : ∀ F ∈ f, Flips F := by
  intro F hF
  obtain ⟨j, hj, rfl⟩ := List.getElem_of_mem hF
  have := isForward_unique h j (by rw [h.1] at hj; omega)
  rw [List.getElem?_eq_getElem hj] at this
  rw [Option.some.inj this]
  have hall : ∀ (l : List (Sup n)) (i : Sup n), Flips i → (∀ P ∈ l, Flips P) → Flips (l.foldl (fun F P => P * F) i) := by
    intro l
    induction l with
    | nil => intro i hi _; exact hi
    | cons P l ih =>
      intro i hi hl
      exact ih _ ((hl P (by simp)).mul hi) fun Q hQ => hl Q (by simp [hQ])
  exact hall _ _ hi fun P hP => hp P (List.mem_of_mem_take hP)

omit [DecidableEq n] in
theorem Flips.trace_real {P : Sup n} (h : Flips P) : P.trace.im = 0 := by
  have : star P.trace = P.trace := by
    unfold Matrix.trace
    rw [star_sum, ← Equiv.sum_comp (Equiv.prodComm n n)]
    refine Finset.sum_congr rfl fun x _ => ?_
    rw [Matrix.diag_apply, Matrix.diag_apply, ← h]
    rcases x with ⟨a, b⟩
    rfl
  exact Complex.conj_eq_iff_im.mp this

/-! ## C148 -/

/-- Both subsystems at once: the forward propagators of the pair. -/
theorem openRun_both (p : LPar (n × k)) (a : LPar n) (b : LPar k) {A : List (Matrix n n ℂ)} {B : List (Matrix k k ℂ)}
    (h : OpenApart p a b A B) (hp : p.method = .frechet ∧ p.L.ExpmOk) (ha : a.method = .frechet ∧ a.L.ExpmOk)
    (hb : b.method = .frechet ∧ b.L.ExpmOk) (S : List (OpenStep n)) (S' : List (OpenStep k)) (hS : S ≠ [])
    (hτ : S.map OpenStep.τ = S'.map OpenStep.τ) (hu : ∀ s ∈ S, s.u.length = a.ctrl.length)
    (hv : ∀ s ∈ S', s.u.length = b.ctrl.length) :
    ∃ fa fb, openRun a S = .ok fa ∧ openRun b S' = .ok fb ∧ IsForward a.init (S.map (stepProp a A)) fa ∧
      IsForward b.init (S'.map (stepProp b B)) fb ∧ openRun p (List.zipWith bothSteps S S') = .ok (List.zipWith both fa fb) := by
  have hl : S.length = S'.length := by simpa using congrArg List.length hτ
  have hS' : S' ≠ [] := by
    rintro rfl
    exact hS (List.length_eq_zero_iff.mp hl)
  obtain ⟨fa, a1, a2⟩ := openRun_ok a h.first ha.1 ha.2 S hS hu
  obtain ⟨fb, b1, b2⟩ := openRun_ok b h.second hb.1 hb.2 S' hS' hv
  obtain ⟨f, c1, c2⟩ := openRun_ok p h.pair hp.1 hp.2 (List.zipWith bothSteps S S') (by
    intro h0
    have := congrArg List.length h0
    simp [hl] at this
    exact hS' this) (by
    intro s hs
    obtain ⟨i, hi, rfl⟩ := List.getElem_of_mem hs
    simp only [List.getElem_zipWith, bothSteps, List.length_append, h.ctrl, bothOps, List.length_map]
    rw [hu _ (List.getElem_mem _), hv _ (List.getElem_mem _)])
  have hstep : (List.zipWith bothSteps S S').map (stepProp p (bothOps A B)) =
      List.zipWith both (S.map (stepProp a A)) (S'.map (stepProp b B)) := by
    refine List.ext_getElem (by simp) fun i h1 h2 => ?_
    simp only [List.length_map, List.length_zipWith, lt_inf_iff] at h1
    simp only [List.getElem_map, List.getElem_zipWith]
    refine stepProp_both h _ _ (hu _ (List.getElem_mem _)) (hv _ (List.getElem_mem _)) ?_
    have := congrArg (fun l => l[i]?) hτ
    simpa [h1.1, h1.2] using this
  rw [hstep, h.init] at c2
  refine ⟨fa, fb, a1, b1, a2, b2, ?_⟩
  have hu' : ∀ i : Nat, f[i]? = (List.zipWith both fa fb)[i]? := by
    intro i
    have h2 := forward_both a2 b2 (by simp [hl])
    by_cases hi : i ≤ (List.zipWith both (S.map (stepProp a A)) (S'.map (stepProp b B))).length
    · rw [isForward_unique c2 i hi, isForward_unique h2 i hi]
    · rw [List.getElem?_eq_none (by rw [c2.1]; omega), List.getElem?_eq_none (by rw [h2.1]; omega)]
  rw [c1, List.ext_getElem? hu']

/-- **C148** Subsystems which are prepared independently stay independent: at all times the state of the pair is the product of the
states which the solver computes for each of the two alone. -/
theorem c148_product_states (p : LPar (n × k)) (a : LPar n) (b : LPar k) {A : List (Matrix n n ℂ)} {B : List (Matrix k k ℂ)}
    (h : OpenApart p a b A B) (hp : p.method = .frechet ∧ p.L.ExpmOk) (ha : a.method = .frechet ∧ a.L.ExpmOk)
    (hb : b.method = .frechet ∧ b.L.ExpmOk) (S : List (OpenStep n)) (S' : List (OpenStep k)) (hS : S ≠ [])
    (hτ : S.map OpenStep.τ = S'.map OpenStep.τ) (hu : ∀ s ∈ S, s.u.length = a.ctrl.length)
    (hv : ∀ s ∈ S', s.u.length = b.ctrl.length) :
    ∃ fa fb f, openRun a S = .ok fa ∧ openRun b S' = .ok fb ∧ openRun p (List.zipWith bothSteps S S') = .ok f ∧
      fa.length = S.length + 1 ∧ fb.length = S.length + 1 ∧ f.length = S.length + 1 ∧
      ∀ (i : Nat), i ≤ S.length → ∀ ρ σ, stateAt f i (ρ ⊗ₖ σ) = stateAt fa i ρ ⊗ₖ stateAt fb i σ := by
  have hl : S.length = S'.length := by simpa using congrArg List.length hτ
  obtain ⟨fa, fb, e1, e2, e3, e4, e5⟩ := openRun_both p a b h hp ha hb S S' hS hτ hu hv
  have l1 : fa.length = S.length + 1 := by rw [e3.1]; simp
  have l2 : fb.length = S.length + 1 := by rw [e4.1]; simp [hl]
  refine ⟨fa, fb, _, e1, e2, e5, l1, l2, by simp [l1, l2], fun i hi ρ σ => ?_⟩
  unfold stateAt
  rw [List.getD_eq_getElem _ _ (by simp [l1, l2]; omega), List.getD_eq_getElem _ _ (by omega), List.getD_eq_getElem _ _ (by omega),
    List.getElem_zipWith]
  generalize fa[i] = P
  generalize fb[i] = Q
  ext ⟨i1, i2⟩ ⟨j1, j2⟩
  show (∑ x, both P Q ((j1, j2), (i1, i2)) x * Matrix.vec (ρ ⊗ₖ σ) x) = (∑ y, P (j1, i1) y * Matrix.vec ρ y) * ∑ z, Q (j2, i2) z * Matrix.vec σ z
  rw [Finset.sum_mul_sum, ← Finset.sum_product', Finset.univ_product_univ, ← Equiv.sum_comp (bySystem n k)]
  refine Finset.sum_congr rfl ?_
  rintro ⟨⟨a, b⟩, ⟨c, d⟩⟩ -
  simp only [both, Matrix.submatrix_apply, Equiv.prodProdProdComm_apply, Matrix.kroneckerMap_apply, Matrix.vec]
  ring

/-- The state of the first subsystem. -/
def firstState (R : Matrix (n × k) (n × k) ℂ) : Matrix n n ℂ := Matrix.of fun i j => ∑ c, R (i, c) (j, c)

/-- The state of the second subsystem. -/
def secondState (R : Matrix (n × k) (n × k) ℂ) : Matrix k k ℂ := Matrix.of fun i j => ∑ c, R (c, i) (c, j)

theorem Physical.trace_row {Q : Sup k} (h : Physical Q) (j i : k) : (∑ c, Q (c, c) (j, i)) = if i = j then 1 else 0 := by
  obtain ⟨ρ', h1, h2, -⟩ := h (unvec (Pi.single (j, i) 1))
  rw [vec_unvec, Matrix.mulVec_single_one] at h1
  have h3 : ∀ c, Q (c, c) (j, i) = ρ' c c := fun c => congrFun h1 (c, c)
  rw [Finset.sum_congr rfl fun c _ => h3 c]
  refine Eq.trans (show _ = ρ'.trace from rfl) (h2.trans ?_)
  show (∑ c, Pi.single (M := fun _ => ℂ) (j, i) (1 : ℂ) (c, c)) = _
  by_cases hij : i = j
  · subst hij
    rw [if_pos rfl, Finset.sum_eq_single i]
    · simp
    · intro c _ hc
      rw [Pi.single_eq_of_ne]
      simpa using hc
    · simp
  · rw [if_neg hij]
    refine Finset.sum_eq_zero fun c _ => ?_
    rw [Pi.single_eq_of_ne]
    intro hc
    rw [Prod.mk.injEq] at hc
    exact hij (hc.2.symm.trans hc.1)

/-- **C148** The other subsystem may be ignored: for every state of the pair, also with correlations between the two, the state of
the first subsystem evolves as computed for this subsystem alone. -/
theorem c148_marginal (p : LPar (n × k)) (a : LPar n) (b : LPar k) {A : List (Matrix n n ℂ)} {B : List (Matrix k k ℂ)}
    (h : OpenApart p a b A B) (hp : p.method = .frechet ∧ p.L.ExpmOk) (ha : a.method = .frechet ∧ a.L.ExpmOk)
    (hb : b.method = .frechet ∧ b.L.ExpmOk) (hi : b.init = 1) (hH : ∀ H ∈ b.ctrl, H.IsHermitian)
    (S : List (OpenStep n)) (S' : List (OpenStep k)) (hS : S ≠ [])
    (hτ : S.map OpenStep.τ = S'.map OpenStep.τ) (hu : ∀ s ∈ S, s.u.length = a.ctrl.length)
    (hv : ∀ s ∈ S', s.u.length = b.ctrl.length) (hD : ∀ s ∈ S', s.H.IsHermitian) :
    ∃ fa f, openRun a S = .ok fa ∧ openRun p (List.zipWith bothSteps S S') = .ok f ∧
      fa.length = S.length + 1 ∧ f.length = S.length + 1 ∧
      ∀ (i : Nat), i ≤ S.length → ∀ R, firstState (stateAt f i R) = stateAt fa i (firstState R) := by
  have hl : S.length = S'.length := by simpa using congrArg List.length hτ
  obtain ⟨fa, fb, e1, e2, e3, e4, e5⟩ := openRun_both p a b h hp ha hb S S' hS hτ hu hv
  have l1 : fa.length = S.length + 1 := by rw [e3.1]; simp
  have l2 : fb.length = S.length + 1 := by rw [e4.1]; simp [hl]
  have hS' : S' ≠ [] := by
    rintro rfl
    exact hS (List.length_eq_zero_iff.mp hl)
  obtain ⟨-, fb', -, k2, -, -, -, k6⟩ := c39_trace_hermitian { b with drift := S'.map OpenStep.H } B (S'.map OpenStep.τ) (S'.map OpenStep.u)
    (S'.map OpenStep.x) (Local.lindblads h.second S' _) (by simpa using hS') (by simp) (by simp) (by simpa using hv) (by simpa using hD)
    hH hb.1 hb.2 hi
  have : fb' = fb := Except.ok.inj (k2.symm.trans e2)
  subst this
  refine ⟨fa, _, e1, e5, l1, by simp [l1, l2], fun i hi R => ?_⟩
  unfold stateAt
  rw [List.getD_eq_getElem _ _ (by simp [l1, l2]; omega), List.getD_eq_getElem _ _ (by omega), List.getElem_zipWith]
  have hQ : Physical fb'[i] := k6 _ (List.getElem_mem _)
  generalize fa[i] = P
  generalize fb'[i] = Q at hQ
  ext i1 j1
  show (∑ c, ∑ x, both P Q ((j1, c), (i1, c)) x * Matrix.vec R x) = ∑ y, P (j1, i1) y * Matrix.vec (firstState R) y
  rw [Finset.sum_comm, ← Equiv.sum_comp (bySystem n k).symm, Fintype.sum_prod_type]
  refine Finset.sum_congr rfl ?_
  rintro ⟨j, i⟩ -
  have hx : ∀ x : k × k, (∑ c, both P Q ((j1, c), (i1, c)) ((bySystem n k).symm ((j, i), x)) * Matrix.vec R ((bySystem n k).symm ((j, i), x))) =
      P (j1, i1) (j, i) * (if x.2 = x.1 then R (i, x.2) (j, x.1) else 0) := by
    rintro ⟨j2, i2⟩
    have : ∀ c, both P Q ((j1, c), (i1, c)) ((bySystem n k).symm ((j, i), (j2, i2))) * Matrix.vec R ((bySystem n k).symm ((j, i), (j2, i2))) =
        P (j1, i1) (j, i) * R (i, i2) (j, j2) * Q (c, c) (j2, i2) := by
      intro c
      simp only [both, Matrix.submatrix_apply, Equiv.prodProdProdComm_apply, Matrix.kroneckerMap_apply, Matrix.vec,
        Equiv.prodProdProdComm_symm]
      ring
    rw [Finset.sum_congr rfl fun c _ => this c, ← Finset.mul_sum, Physical.trace_row hQ]
    split <;> simp
  rw [Finset.sum_congr rfl fun x _ => hx x, ← Finset.mul_sum]
  congr 1
  rw [Fintype.sum_prod_type]
  simp [firstState, Matrix.vec]

/-- **C148** The other subsystem may be ignored: for every state of the pair, also with correlations between the two, the state of
the second subsystem evolves as computed for this subsystem alone. -/
theorem c148_marginal_second (p : LPar (n × k)) (a : LPar n) (b : LPar k) {A : List (Matrix n n ℂ)} {B : List (Matrix k k ℂ)}
    (h : OpenApart p a b A B) (hp : p.method = .frechet ∧ p.L.ExpmOk) (ha : a.method = .frechet ∧ a.L.ExpmOk)
    (hb : b.method = .frechet ∧ b.L.ExpmOk) (hi : a.init = 1) (hH : ∀ H ∈ a.ctrl, H.IsHermitian)
    (S : List (OpenStep n)) (S' : List (OpenStep k)) (hS : S ≠ [])
    (hτ : S.map OpenStep.τ = S'.map OpenStep.τ) (hu : ∀ s ∈ S, s.u.length = a.ctrl.length)
    (hv : ∀ s ∈ S', s.u.length = b.ctrl.length) (hD : ∀ s ∈ S, s.H.IsHermitian) :
    ∃ fb f, openRun b S' = .ok fb ∧ openRun p (List.zipWith bothSteps S S') = .ok f ∧
      fb.length = S.length + 1 ∧ f.length = S.length + 1 ∧
      ∀ (i : Nat), i ≤ S.length → ∀ R, secondState (stateAt f i R) = stateAt fb i (secondState R) := by
  have hl : S.length = S'.length := by simpa using congrArg List.length hτ
  obtain ⟨fa, fb, e1, e2, e3, e4, e5⟩ := openRun_both p a b h hp ha hb S S' hS hτ hu hv
  have l1 : fa.length = S.length + 1 := by rw [e3.1]; simp
  have l2 : fb.length = S.length + 1 := by rw [e4.1]; simp [hl]
  obtain ⟨-, fa', -, k2, -, -, -, k6⟩ := c39_trace_hermitian { a with drift := S.map OpenStep.H } A (S.map OpenStep.τ) (S.map OpenStep.u)
    (S.map OpenStep.x) (Local.lindblads h.first S _) (by simpa using hS) (by simp) (by simp) (by simpa using hu) (by simpa using hD)
    hH ha.1 ha.2 hi
  have : fa' = fa := Except.ok.inj (k2.symm.trans e1)
  subst this
  refine ⟨fb, _, e2, e5, l2, by simp [l1, l2], fun i hi R => ?_⟩
  unfold stateAt
  rw [List.getD_eq_getElem _ _ (by simp [l1, l2]; omega), List.getD_eq_getElem _ _ (by omega), List.getElem_zipWith]
  have hP : Physical fa'[i] := k6 _ (List.getElem_mem _)
  generalize fa'[i] = P at hP
  generalize fb[i] = Q
  ext i1 j1
  show (∑ c, ∑ x, both P Q ((c, j1), (c, i1)) x * Matrix.vec R x) = ∑ y, Q (j1, i1) y * Matrix.vec (secondState R) y
  rw [Finset.sum_comm, ← Equiv.sum_comp (bySystem n k).symm, Fintype.sum_prod_type, Finset.sum_comm]
  refine Finset.sum_congr rfl ?_
  rintro ⟨j, i⟩ -
  have hx : ∀ x : n × n, (∑ c, both P Q ((c, j1), (c, i1)) ((bySystem n k).symm (x, (j, i))) * Matrix.vec R ((bySystem n k).symm (x, (j, i)))) =
      Q (j1, i1) (j, i) * (if x.2 = x.1 then R (x.2, i) (x.1, j) else 0) := by
    rintro ⟨j2, i2⟩
    have : ∀ c, both P Q ((c, j1), (c, i1)) ((bySystem n k).symm ((j2, i2), (j, i))) * Matrix.vec R ((bySystem n k).symm ((j2, i2), (j, i))) =
        Q (j1, i1) (j, i) * R (i2, i) (j2, j) * P (c, c) (j2, i2) := by
      intro c
      simp only [both, Matrix.submatrix_apply, Equiv.prodProdProdComm_apply, Matrix.kroneckerMap_apply, Matrix.vec,
        Equiv.prodProdProdComm_symm]
      ring
    rw [Finset.sum_congr rfl fun c _ => this c, ← Finset.mul_sum, Physical.trace_row hP]
    split <;> simp
  rw [Finset.sum_congr rfl fun x _ => hx x, ← Finset.mul_sum]
  congr 1
  rw [Fintype.sum_prod_type]
  simp [secondState, Matrix.vec]

theorem openCost_last (q : LPar n) (S : List (OpenStep n)) (T : Matrix n n ℂ) (f : List (Sup n)) (F : Sup n)
    (hf : openRun q S = .ok f) (hF : f.getLast? = some F) :
    openCost q S T = .ok (1 - (unitarySup Tᴴ * F).trace.re / Fintype.card n / Fintype.card n) := by
  unfold openCost lindCosts
  have : LPar.fwd { q with drift := S.map OpenStep.H } (S.map OpenStep.τ) (S.map OpenStep.u) (S.map OpenStep.x) = .ok f := hf
  rw [this]
  simp only [bind, Except.bind, opCostsSup]
  rw [last_ok hF]
  rfl

/-- **C148** The fidelities of gates on open subsystems multiply: `OperationInfidelity` of the pair of gates is
`1 - (1 - I₁) (1 - I₂)`, for every pair of targets. -/
theorem c148_gates (p : LPar (n × k)) (a : LPar n) (b : LPar k) {A : List (Matrix n n ℂ)} {B : List (Matrix k k ℂ)}
    (h : OpenApart p a b A B) (hp : p.method = .frechet ∧ p.L.ExpmOk) (ha : a.method = .frechet ∧ a.L.ExpmOk)
    (hb : b.method = .frechet ∧ b.L.ExpmOk) (hi : a.init = 1)
    (S : List (OpenStep n)) (S' : List (OpenStep k)) (hS : S ≠ [])
    (hτ : S.map OpenStep.τ = S'.map OpenStep.τ) (hu : ∀ s ∈ S, s.u.length = a.ctrl.length)
    (hv : ∀ s ∈ S', s.u.length = b.ctrl.length) (T₁ : Matrix n n ℂ) (T₂ : Matrix k k ℂ) :
    ∃ c₁ c₂ c : ℝ, openCost a S T₁ = .ok c₁ ∧ openCost b S' T₂ = .ok c₂ ∧
      openCost p (List.zipWith bothSteps S S') (T₁ ⊗ₖ T₂) = .ok c ∧ 1 - c = (1 - c₁) * (1 - c₂) := by
  have hl : S.length = S'.length := by simpa using congrArg List.length hτ
  obtain ⟨fa, fb, e1, e2, e3, e4, e5⟩ := openRun_both p a b h hp ha hb S S' hS hτ hu hv
  have l1 : fa.length = S.length + 1 := by rw [e3.1]; simp
  have l2 : fb.length = S.length + 1 := by rw [e4.1]; simp [hl]
  obtain ⟨P, hP⟩ : ∃ P, fa.getLast? = some P := by
    rw [List.getLast?_eq_getElem?]
    exact ⟨_, List.getElem?_eq_getElem (by omega)⟩
  obtain ⟨Q, hQ⟩ : ∃ Q, fb.getLast? = some Q := by
    rw [List.getLast?_eq_getElem?]
    exact ⟨_, List.getElem?_eq_getElem (by omega)⟩
  refine ⟨_, _, _, openCost_last a S T₁ fa P e1 hP, openCost_last b S' T₂ fb Q e2 hQ, openCost_last p _ (T₁ ⊗ₖ T₂) _ _ e5 (zipWith_getLast _ (by omega) hP hQ), ?_⟩
  have hfa : Flips P := flips_forward e3 (by rw [hi]; exact flips_one) (by
    intro X hX
    obtain ⟨s, -, rfl⟩ := List.mem_map.mp hX
    exact flips_stepProp a A s) P (List.mem_of_getLast? hP)
  have hU : unitarySup (T₁ ⊗ₖ T₂)ᴴ = both (unitarySup T₁ᴴ) (unitarySup T₂ᴴ) := by
    unfold unitarySup
    rw [Matrix.conjTranspose_kronecker, ← both_kron]
    congr 1
    ext ⟨a, b⟩ ⟨c, d⟩
    simp [conjM]
  have hr := ((flips_unitarySup T₁ᴴ).mul hfa).trace_real
  rw [hU, both_mul, trace_both, Complex.mul_re, hr, Fintype.card_prod]
  push_cast
  ring

/-- One amplitude changed. -/
def bumpStep (S : List (OpenStep n)) (t c : Nat) (y : ℝ) : List (OpenStep n) :=
  S.modify t fun s => { s with u := s.u.modify c (· + y) }

omit [Fintype n] [DecidableEq n] in
theorem bumpStep_map (S : List (OpenStep n)) (t c : Nat) (y : ℝ) :
    (bumpStep S t c y).map OpenStep.H = S.map OpenStep.H ∧ (bumpStep S t c y).map OpenStep.τ = S.map OpenStep.τ ∧
      (bumpStep S t c y).map OpenStep.x = S.map OpenStep.x ∧ (bumpStep S t c y).map OpenStep.u = bump (S.map OpenStep.u) t c y := by
  unfold bumpStep bump
  refine ⟨?_, ?_, ?_, ?_⟩ <;>
  · refine List.ext_getElem (by simp) fun i h1 h2 => ?_
    simp only [List.getElem_map, List.getElem_modify]
    split <;> rfl

omit [Fintype n] [DecidableEq n] in
theorem bumpStep_row {S : List (OpenStep n)} {N : Nat} (h : ∀ s ∈ S, s.u.length = N) (t c : Nat) (y : ℝ) :
    ∀ s ∈ bumpStep S t c y, s.u.length = N := by
  intro s hs
  unfold bumpStep at hs
  obtain ⟨i, hi, rfl⟩ := List.getElem_of_mem hs
  rw [List.getElem_modify]
  split
  · rw [List.length_modify]
    exact h _ (List.getElem_mem _)
  · exact h _ (List.getElem_mem _)

omit [Fintype n] [Fintype k] in
theorem bumpStep_first (S : List (OpenStep n)) (S' : List (OpenStep k)) (t c : Nat) (y : ℝ) (h : ∀ s ∈ S, c < s.u.length) :
    bumpStep (List.zipWith bothSteps S S') t c y = List.zipWith bothSteps (bumpStep S t c y) S' := by
  unfold bumpStep
  refine List.ext_getElem (by simp) fun i h1 h2 => ?_
  simp only [List.getElem_modify, List.getElem_zipWith]
  split
  · simp only [bothSteps]
    rw [modify_append_first _ _ _ _ (h _ (List.getElem_mem _))]
  · rfl

omit [Fintype n] [Fintype k] in
theorem bumpStep_second (S : List (OpenStep n)) (S' : List (OpenStep k)) (N t c : Nat) (y : ℝ) (h : ∀ s ∈ S, s.u.length = N) :
    bumpStep (List.zipWith bothSteps S S') t (N + c) y = List.zipWith bothSteps S (bumpStep S' t c y) := by
  unfold bumpStep
  refine List.ext_getElem (by simp) fun i h1 h2 => ?_
  simp only [List.getElem_modify, List.getElem_zipWith]
  split
  · simp only [bothSteps]
    rw [modify_append_second _ _ _ _ _ (h _ (List.getElem_mem _))]
  · rfl

/-- The gradient of the infidelity on the Lindblad solver, entry by entry. -/
theorem open_gradient {q : LPar n} {S : List (OpenStep n)} (hq : Differentiates q S) (hr : ∀ s ∈ S, s.u.length = q.ctrl.length)
    (T : Matrix n n ℂ) : ∃ g, openGrad q S T = .ok g ∧ Rect g S.length q.ctrl.length ∧ ∀ t c, t < S.length → c < q.ctrl.length →
      ∃ (G : ℝ) (cost : ℝ → ℝ), entry g t c = some G ∧ (∀ y, openCost q (bumpStep S t c y) T = .ok (cost y)) ∧ HasDerivAt cost G 0 := by
  let p : LPar n := { q with drift := S.map OpenStep.H }
  obtain ⟨hX, E, hE⟩ : LExact p (S.map OpenStep.τ) ∧ ∃ E, GivenDiss p (S.map OpenStep.τ).length E := hq
  have hpc : p.ctrl = q.ctrl := rfl
  have hN : (S.map OpenStep.τ).length = S.length := by simp
  let U : Fin (S.map OpenStep.τ).length → Fin p.ctrl.length → ℝ := fun t j => ((S.map OpenStep.u).getD t []).getD j 0
  have hU : rowsOf U = S.map OpenStep.u := by
    refine List.ext_getElem (by simp [rowsOf]) fun i h1 h2 => ?_
    have hi : i < S.length := by simpa using h2
    refine List.ext_getElem (by simp [rowsOf, hpc, hr _ (List.getElem_mem hi)]) fun j h3 h4 => ?_
    have hj : j < S[i].u.length := by simpa using h4
    simp [rowsOf, U, hj]
  obtain ⟨g, g1, g2, L, g3, g4⟩ := c98_total p (S.map OpenStep.τ) hX E hE none T U (S.map OpenStep.x)
  rw [hU] at g1
  refine ⟨rowsOf g, g1, ⟨by simp [rowsOf], (rowsOf_shape g).2⟩, fun t c ht hc => ?_⟩
  let t' : Fin (S.map OpenStep.τ).length := ⟨t, by simpa using ht⟩
  let c' : Fin p.ctrl.length := ⟨c, hc⟩
  refine ⟨g t' c', fun y => 1 - entFidSup none T (lindFinal p (S.map OpenStep.τ) E (U + y • unitAmp t' c')), ?_, fun y => ?_, ?_⟩
  · simp [entry, rowsOf, ht, hpc, hc, t', c']
  · obtain ⟨b1, b2, b3, b4⟩ := bumpStep_map S t c y
    unfold openCost
    rw [b1, b2, b3, b4, ← hU]
    have := rowsOf_bump U t' c' y
    rw [show bump (rowsOf U) t c y = bump (rowsOf U) t' c' y from rfl, this]
    exact g2 _ _
  · have hl : HasDerivAt (fun y : ℝ => U + y • unitAmp t' c') (unitAmp t' c') 0 := by
      simpa using ((hasDerivAt_id (0 : ℝ)).smul_const (unitAmp t' c')).const_add U
    have g3' : HasFDerivAt (fun V => 1 - entFidSup none T (lindFinal p (S.map OpenStep.τ) E V)) L (U + (0 : ℝ) • unitAmp t' c') := by
      simpa using g3
    have := g3'.comp_hasDerivAt (0 : ℝ) hl
    refine this.congr_deriv ?_
    rw [g4]
    rw [Finset.sum_eq_single t', Finset.sum_eq_single c']
    · simp [unitAmp]
    · intro j _ hj
      simp [unitAmp, Pi.single_eq_of_ne hj]
    · simp
    · intro i _ hi
      simp [unitAmp, Pi.single_eq_of_ne hi]
    · simp

/-- **C148** The gradient with respect to the controls of one subsystem is the gradient of this subsystem alone, times the fidelity
of the other one. -/
theorem c148_gradient (p : LPar (n × k)) (a : LPar n) (b : LPar k) {A : List (Matrix n n ℂ)} {B : List (Matrix k k ℂ)}
    (h : OpenApart p a b A B) (hi : a.init = 1) (S : List (OpenStep n)) (S' : List (OpenStep k))
    (hp : Differentiates p (List.zipWith bothSteps S S')) (ha : Differentiates a S) (hb : Differentiates b S')
    (hτ : S.map OpenStep.τ = S'.map OpenStep.τ) (hu : ∀ s ∈ S, s.u.length = a.ctrl.length)
    (hv : ∀ s ∈ S', s.u.length = b.ctrl.length) (T₁ : Matrix n n ℂ) (T₂ : Matrix k k ℂ) :
    ∃ (c₁ c₂ : ℝ) (g₁ g₂ g : List (List ℝ)), openCost a S T₁ = .ok c₁ ∧ openCost b S' T₂ = .ok c₂ ∧ openGrad a S T₁ = .ok g₁ ∧
      openGrad b S' T₂ = .ok g₂ ∧ openGrad p (List.zipWith bothSteps S S') (T₁ ⊗ₖ T₂) = .ok g ∧
      g.length = S.length ∧ (∀ row ∈ g, row.length = a.ctrl.length + b.ctrl.length) ∧
      (∀ t c, t < S.length → c < a.ctrl.length → ∃ x, entry g₁ t c = some x ∧ entry g t c = some ((1 - c₂) * x)) ∧
      ∀ t c, t < S.length → c < b.ctrl.length → ∃ x, entry g₂ t c = some x ∧ entry g t (a.ctrl.length + c) = some ((1 - c₁) * x) := by
  have hl : S.length = S'.length := by simpa using congrArg List.length hτ
  have hS : S ≠ [] := fun h0 => ha.1.steps (by rw [h0]; rfl)
  have gates := fun S S' hS hτ hu hv => c148_gates p a b h ⟨hp.1.method, hp.1.expm⟩ ⟨ha.1.method, ha.1.expm⟩ ⟨hb.1.method, hb.1.expm⟩ hi
    S S' hS hτ hu hv T₁ T₂
  obtain ⟨c₁, c₂, -, k1, k2, -, -⟩ := gates S S' hS hτ hu hv
  have hctrl : p.ctrl.length = a.ctrl.length + b.ctrl.length := by simp [h.ctrl, bothOps]
  have hrow : ∀ s ∈ List.zipWith bothSteps S S', s.u.length = p.ctrl.length := by
    intro s hs
    obtain ⟨i, hi, rfl⟩ := List.getElem_of_mem hs
    simp only [List.getElem_zipWith, bothSteps, List.length_append, hctrl]
    rw [hu _ (List.getElem_mem _), hv _ (List.getElem_mem _)]
  obtain ⟨g₁, a1, -, a3⟩ := open_gradient ha hu T₁
  obtain ⟨g₂, b1, -, b3⟩ := open_gradient hb hv T₂
  obtain ⟨g, p1, p2, p3⟩ := open_gradient hp hrow (T₁ ⊗ₖ T₂)
  have hlz : (List.zipWith bothSteps S S').length = S.length := by simp [hl]
  rw [hlz] at p2 p3
  have hne : ∀ {i : Type} (S : List (OpenStep i)) (t c : Nat) (y : ℝ), S ≠ [] → bumpStep S t c y ≠ [] := by
    intro i S t c y h0 h1
    have := congrArg List.length h1
    simp only [bumpStep, List.length_modify, List.length_nil] at this
    exact h0 (List.length_eq_zero_iff.mp this)
  refine ⟨c₁, c₂, g₁, g₂, g, k1, k2, a1, b1, p1, p2.1, fun row hr => (p2.2 row hr).trans hctrl, fun t c ht hc => ?_, fun t c ht hc => ?_⟩
  · obtain ⟨x, f₁, x1, x2, x3⟩ := a3 t c ht hc
    obtain ⟨y, f, y1, y2, y3⟩ := p3 t c ht (by omega)
    refine ⟨x, x1, ?_⟩
    have hf : f = fun s => 1 - (1 - f₁ s) * (1 - c₂) := by
      funext s
      obtain ⟨d₁, d₂, d, l1, l2, l3, l4⟩ := gates (bumpStep S t c s) S' (hne S t c s hS) ((bumpStep_map S t c s).2.1.trans hτ)
        (bumpStep_row hu t c s) hv
      rw [x2 s] at l1
      rw [k2] at l2
      rw [← bumpStep_first S S' t c s fun r hr => by rw [hu r hr]; exact hc, y2 s] at l3
      cases l1; cases l2; cases l3
      linarith
    have hd : HasDerivAt f ((1 - c₂) * x) 0 := by
      rw [hf]
      refine (((x3.const_sub 1).mul_const (1 - c₂)).const_sub 1).congr_deriv ?_
      ring
    rw [y1, y3.unique hd]
  · obtain ⟨x, f₂, x1, x2, x3⟩ := b3 t c (by omega) hc
    obtain ⟨y, f, y1, y2, y3⟩ := p3 t (a.ctrl.length + c) ht (by omega)
    refine ⟨x, x1, ?_⟩
    have hf : f = fun s => 1 - (1 - c₁) * (1 - f₂ s) := by
      funext s
      obtain ⟨d₁, d₂, d, l1, l2, l3, l4⟩ := gates S (bumpStep S' t c s) hS (hτ.trans (bumpStep_map S' t c s).2.1.symm)
        hu (bumpStep_row hv t c s)
      rw [x2 s] at l2
      rw [k1] at l1
      rw [← bumpStep_second S S' _ t c s hu, y2 s] at l3
      cases l1; cases l2; cases l3
      linarith
    have hd : HasDerivAt f ((1 - c₁) * x) 0 := by
      rw [hf]
      refine (((x3.const_sub 1).const_mul (1 - c₁)).const_sub 1).congr_deriv ?_
      ring
    rw [y1, y3.unique hd]

namespace Ex148

/-- A driven qubit which decays, and a qubit with two controls which dephases. -/
noncomputable def one (L : Lapack (Fin 2 × Fin 2)) : LPar (Fin 2) :=
  ⟨L, .frechet, false, 1, [], [!![0, 1; 1, 0]], ⟨none, some [!![0, 1; 0, 0]], none, none, none, none⟩⟩
noncomputable def two (L : Lapack (Fin 2 × Fin 2)) : LPar (Fin 2) :=
  ⟨L, .frechet, false, 1, [], [!![0, 1; 1, 0], !![1, 0; 0, -1]], ⟨none, some [!![1, 0; 0, -1]], none, none, none, none⟩⟩

/-- Both. -/
noncomputable def pair (L : Lapack ((Fin 2 × Fin 2) × (Fin 2 × Fin 2))) : LPar (Fin 2 × Fin 2) :=
  ⟨L, .frechet, false, 1, [], bothOps [!![0, 1; 1, 0]] [!![0, 1; 1, 0], !![1, 0; 0, -1]],
    ⟨none, some (bothOps [!![0, 1; 0, 0]] [!![1, 0; 0, -1]]), none, none, none, none⟩⟩

theorem both_one : both (1 : Sup (Fin 2)) (1 : Sup (Fin 2)) = 1 := by
  unfold both
  rw [Matrix.one_kronecker_one]
  exact Matrix.submatrix_one_equiv _

theorem apart (L : Lapack ((Fin 2 × Fin 2) × (Fin 2 × Fin 2))) (L' : Lapack (Fin 2 × Fin 2)) :
    OpenApart (pair L) (one L') (two L') [!![0, 1; 0, 0]] [!![1, 0; 0, -1]] :=
  ⟨⟨rfl, rfl, by simp, fun f hf => by cases hf⟩, ⟨rfl, rfl, by simp, fun f hf => by cases hf⟩,
    ⟨rfl, rfl, by simp [bothOps], fun f hf => by cases hf⟩, both_one.symm, rfl, fun _ _ _ _ _ _ => rfl⟩

/-- The decay may also depend on the amplitude. -/
noncomputable def pair' (L : Lapack ((Fin 2 × Fin 2) × (Fin 2 × Fin 2))) : LPar (Fin 2 × Fin 2) :=
  ⟨L, .frechet, false, 1, [], bothOps [!![0, 1; 1, 0]] [!![0, 1; 1, 0], !![1, 0; 0, -1]],
    ⟨none, some (bothOps [!![0, 1; 0, 0], !![1, 0; 0, -1]] [!![1, 0; 0, -1]]),
      some fun u x => List.zipWith (fun r _ => [r.headD 0 ^ 2, 1, 1]) u x, none, none, none⟩⟩

theorem apart' (L : Lapack ((Fin 2 × Fin 2) × (Fin 2 × Fin 2))) (L' : Lapack (Fin 2 × Fin 2)) :
    OpenApart (pair' L) (Ex128.driven L') (two L') [!![0, 1; 0, 0], !![1, 0; 0, -1]] [!![1, 0; 0, -1]] := by
  refine ⟨Ex128.driven_local L', ⟨rfl, rfl, by simp, fun f hf => by cases hf⟩,
    ⟨rfl, rfl, by simp [bothOps], fun f hf => by cases hf; exact ⟨_, fun _ _ => rfl, fun _ _ => rfl⟩⟩, both_one.symm, rfl, ?_⟩
  intro u v x y hu hv
  match u, hu with
  | [r], _ => rfl

noncomputable def steps₁ : List (OpenStep (Fin 2)) := [⟨!![1, 0; 0, -1], 2, [3], []⟩, ⟨0, 1, [4], []⟩]
noncomputable def steps₂ : List (OpenStep (Fin 2)) := [⟨0, 2, [5, 6], []⟩, ⟨!![1, 0; 0, -1], 1, [7, 8], []⟩]

/-- A rate that depends on the amplitude of the first qubit, an entangled initial state, and the infidelity of a pair of gates. -/
example : ∃ (L : Lapack ((Fin 2 × Fin 2) × (Fin 2 × Fin 2))) (L' : Lapack (Fin 2 × Fin 2)) (fa f : List _) (c₁ c₂ c : ℝ),
    openRun (Ex128.driven L') steps₁ = .ok fa ∧ openRun (pair' L) (List.zipWith bothSteps steps₁ steps₂) = .ok f ∧
      firstState (stateAt f 2 (Matrix.of fun i j => if i.1 = i.2 ∧ j.1 = j.2 then (1 / 2 : ℂ) else 0)) =
        stateAt fa 2 (firstState (Matrix.of fun i j : Fin 2 × Fin 2 => if i.1 = i.2 ∧ j.1 = j.2 then (1 / 2 : ℂ) else 0)) ∧
      openCost (Ex128.driven L') steps₁ !![0, 1; 1, 0] = .ok c₁ ∧ openCost (two L') steps₂ 1 = .ok c₂ ∧
      openCost (pair' L) (List.zipWith bothSteps steps₁ steps₂) (!![0, 1; 1, 0] ⊗ₖ 1) = .ok c ∧ 1 - c = (1 - c₁) * (1 - c₂) := by
  obtain ⟨L, -, -, hE, -⟩ := lapack_exists ((Fin 2 × Fin 2) × (Fin 2 × Fin 2))
  obtain ⟨L', -, -, hE', -⟩ := lapack_exists (Fin 2 × Fin 2)
  have hX : (!![0, 1; 1, 0] : Matrix (Fin 2) (Fin 2) ℂ).IsHermitian := by
    ext i j; fin_cases i <;> fin_cases j <;> simp
  have hZ : (!![1, 0; 0, -1] : Matrix (Fin 2) (Fin 2) ℂ).IsHermitian := by
    ext i j; fin_cases i <;> fin_cases j <;> simp
  have hu : ∀ s ∈ steps₁, s.u.length = (Ex128.driven L').ctrl.length := by simp [steps₁, Ex128.driven]
  have hv : ∀ s ∈ steps₂, s.u.length = (two L').ctrl.length := by simp [steps₂, two]
  obtain ⟨fa, f, e1, e2, -, -, e3⟩ := c148_marginal (pair' L) (Ex128.driven L') (two L') (apart' L L') ⟨rfl, hE⟩ ⟨rfl, hE'⟩ ⟨rfl, hE'⟩ rfl
    (by simp [two, hX, hZ]) steps₁ steps₂ (by simp [steps₁]) rfl hu hv (by simp [steps₂, hZ])
  obtain ⟨c₁, c₂, c, d1, d2, d3, d4⟩ := c148_gates (pair' L) (Ex128.driven L') (two L') (apart' L L') ⟨rfl, hE⟩ ⟨rfl, hE'⟩ ⟨rfl, hE'⟩ rfl
    steps₁ steps₂ (by simp [steps₁]) rfl hu hv !![0, 1; 1, 0] 1
  exact ⟨L, L', fa, f, c₁, c₂, c, e1, e2, e3 2 (by simp [steps₁]) _, d1, d2, d3, d4⟩

example : ∃ (L : Lapack ((Fin 2 × Fin 2) × (Fin 2 × Fin 2))) (L' : Lapack (Fin 2 × Fin 2)) (c₁ : ℝ) (g₂ g : List (List ℝ)),
    openCost (one L') steps₁ !![0, 1; 1, 0] = .ok c₁ ∧ openGrad (two L') steps₂ 1 = .ok g₂ ∧
      openGrad (pair L) (List.zipWith bothSteps steps₁ steps₂) (!![0, 1; 1, 0] ⊗ₖ 1) = .ok g ∧
      ∃ x, entry g₂ 1 0 = some x ∧ entry g 1 1 = some ((1 - c₁) * x) := by
  obtain ⟨L, -, -, hE, hF⟩ := lapack_exists ((Fin 2 × Fin 2) × (Fin 2 × Fin 2))
  obtain ⟨L', -, -, hE', hF'⟩ := lapack_exists (Fin 2 × Fin 2)
  have hX : (!![0, 1; 1, 0] : Matrix (Fin 2) (Fin 2) ℂ).IsHermitian := by
    ext i j; fin_cases i <;> fin_cases j <;> simp
  have hZ : (!![1, 0; 0, -1] : Matrix (Fin 2) (Fin 2) ℂ).IsHermitian := by
    ext i j; fin_cases i <;> fin_cases j <;> simp
  have h1 : ∀ A : Matrix (Fin 2) (Fin 2) ℂ, A.IsHermitian → (A ⊗ₖ (1 : Matrix (Fin 2) (Fin 2) ℂ)).IsHermitian := by
    intro A hA
    rw [Matrix.IsHermitian, Matrix.conjTranspose_kronecker, hA.eq, Matrix.conjTranspose_one]
  have h2 : ∀ A : Matrix (Fin 2) (Fin 2) ℂ, A.IsHermitian → ((1 : Matrix (Fin 2) (Fin 2) ℂ) ⊗ₖ A).IsHermitian := by
    intro A hA
    rw [Matrix.IsHermitian, Matrix.conjTranspose_kronecker, hA.eq, Matrix.conjTranspose_one]
  obtain ⟨c₁, c₂, g₁, g₂, g, k1, -, -, k4, k5, -, -, -, k8⟩ := c148_gradient (pair L) (one L') (two L') (apart L L') rfl steps₁ steps₂
    ⟨⟨by simp [pair, bothOps], rfl, by simp [steps₁, steps₂], rfl, hE, hF, by simp [pair, bothOps, h1 _ hX, h2 _ hX, h2 _ hZ]⟩,
      _, .lindblad _ (by simp [bothOps]) none rfl rfl⟩
    ⟨⟨by simp [one], rfl, by simp [steps₁], rfl, hE', hF', by simp [one, hX]⟩, _, .lindblad _ (by simp) none rfl rfl⟩
    ⟨⟨by simp [two], rfl, by simp [steps₂], rfl, hE', hF', by simp [two, hX, hZ]⟩, _, .lindblad _ (by simp) none rfl rfl⟩
    rfl (by simp [steps₁, one]) (by simp [steps₂, two]) !![0, 1; 1, 0] 1
  exact ⟨L, L', c₁, g₂, g, k1, k4, k5, k8 1 0 (by simp [steps₁]) (by simp [two])⟩

end Ex148

end
end Verif.Cost
