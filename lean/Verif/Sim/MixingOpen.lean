import Verif.Sim.MixingNoise
import Verif.Sim.RefinedOpen

/-!
# C173: affine amplitude functions in open systems

`LindbladSolver` (solver_algorithms.py:1572-2105) and `OperationInfidelity` (cost_functions.py:1271-1316) for an open system whose control
amplitudes are affine functions of the parameters of the time step, and for the system with the combined Hamiltonians.
-/

namespace Verif.Sim
open Verif Verif.Operator Verif.Solver Verif.Cost Matrix

variable {n : Type} [Fintype n] [DecidableEq n]

/-! ## Specification -/

/-- `p'` describes the open system of `p` with other controls: control `k` is the sum of `A k l` times control `l` of `p`, the drift has in addition
the sum of `b l` times control `l`, and the dissipation is that of the amplitudes `A^T v + b`. -/
structure CombinedOpen (p p' : LPar n) (A : Fin p'.ctrl.length → Fin p.ctrl.length → ℝ) (b : Fin p.ctrl.length → ℝ) (τ : List ℝ)
    (E : Fin τ.length → (Fin p.ctrl.length → ℝ) → Sup n) (E' : Fin τ.length → (Fin p'.ctrl.length → ℝ) → Sup n) : Prop where
  exact : LExact p τ
  exact' : LExact p' τ
  given : GivenDiss p τ.length E
  given' : GivenDiss p' τ.length E'
  init : p'.init = p.init
  ctrl : ∀ k, p'.ctrl.get k = ∑ l, (A k l : ℂ) • p.ctrl.get l
  drift : ∀ t < τ.length, p'.drift.getD t 0 = p.drift.getD t 0 + ∑ l, (b l : ℂ) • p.ctrl.get l
  diss : ∀ t v, E' t v = E t (mixRow A b v)

/-! ## Lemmas -/

theorem CombinedOpen.steps {p p' : LPar n} {A : Fin p'.ctrl.length → Fin p.ctrl.length → ℝ} {b : Fin p.ctrl.length → ℝ} {τ : List ℝ}
    {E : Fin τ.length → (Fin p.ctrl.length → ℝ) → Sup n} {E' : Fin τ.length → (Fin p'.ctrl.length → ℝ) → Sup n}
    (h : CombinedOpen p p' A b τ E E') (V : Fin τ.length → Fin p'.ctrl.length → ℝ) :
    lindSteps p' τ E' V = lindSteps p τ E fun t => mixRow A b (V t) := by
  unfold lindSteps
  congr 1
  funext t
  congr 2
  unfold Cost.stepGen
  rw [h.diss, h.drift t t.2]
  congr 2
  rw [add_assoc]
  congr 1
  simp only [h.ctrl, mixRow, Complex.ofReal_add, add_smul, Finset.sum_add_distrib, Complex.ofReal_sum, Complex.ofReal_mul, Finset.sum_smul,
    Finset.smul_sum, smul_smul]
  rw [add_comm, Finset.sum_comm]

theorem CombinedOpen.final {p p' : LPar n} {A : Fin p'.ctrl.length → Fin p.ctrl.length → ℝ} {b : Fin p.ctrl.length → ℝ} {τ : List ℝ}
    {E : Fin τ.length → (Fin p.ctrl.length → ℝ) → Sup n} {E' : Fin τ.length → (Fin p'.ctrl.length → ℝ) → Sup n}
    (h : CombinedOpen p p' A b τ E E') (V : Fin τ.length → Fin p'.ctrl.length → ℝ) :
    lindFinal p' τ E' V = lindFinal p τ E fun t => mixRow A b (V t) := by
  show (lindSteps p' τ E' V).foldl _ p'.init = (lindSteps p τ E _).foldl _ p.init
  rw [h.steps, h.init]

/-! ## The property -/

/-- **C173** All forward propagators are the same. -/
theorem c173_forward (p p' : LPar n) (A : Fin p'.ctrl.length → Fin p.ctrl.length → ℝ) (b : Fin p.ctrl.length → ℝ) (τ : List ℝ)
    (E : Fin τ.length → (Fin p.ctrl.length → ℝ) → Sup n) (E' : Fin τ.length → (Fin p'.ctrl.length → ℝ) → Sup n)
    (h : CombinedOpen p p' A b τ E E') (V : Fin τ.length → Fin p'.ctrl.length → ℝ) (x x' : Solver.Pulse) :
    ∃ f, p.fwd τ (rowsOf fun t => mixRow A b (V t)) x = .ok f ∧ p'.fwd τ (rowsOf V) x' = .ok f := by
  obtain ⟨D, -, -, hD⟩ := h.given.common h.exact.ctrl
  obtain ⟨D', -, -, hD'⟩ := h.given'.common h.exact'.ctrl
  obtain ⟨tr, -, a1, a2, -⟩ := lind_reads h.exact (fun t => mixRow A b (V t)) x (hD _ x).1 (hD _ x).2
  obtain ⟨tr', -, a1', a2', -⟩ := lind_reads h.exact' V x' (hD' V x').1 (hD' V x').2
  have f' := a2'.forward
  rw [h.steps, h.init] at f'
  rw [forward_unique f' a2.forward] at a1'
  exact ⟨_, a1, a1'⟩

/-- **C173** The infidelity is the same. -/
theorem c173_costs (p p' : LPar n) (A : Fin p'.ctrl.length → Fin p.ctrl.length → ℝ) (b : Fin p.ctrl.length → ℝ) (τ : List ℝ)
    (E : Fin τ.length → (Fin p.ctrl.length → ℝ) → Sup n) (E' : Fin τ.length → (Fin p'.ctrl.length → ℝ) → Sup n)
    (h : CombinedOpen p p' A b τ E E') (cs : Option (List n)) (T : Matrix (CompIdx cs) (CompIdx cs) ℂ)
    (V : Fin τ.length → Fin p'.ctrl.length → ℝ) (x x' : Solver.Pulse) :
    ∃ c, lindCosts cs T p τ (rowsOf fun t => mixRow A b (V t)) x = .ok c ∧ lindCosts cs T p' τ (rowsOf V) x' = .ok c := by
  obtain ⟨-, -, b2, -⟩ := c98_total p τ h.exact E h.given cs T (fun t => mixRow A b (V t)) x
  obtain ⟨-, -, d2, -⟩ := c98_total p' τ h.exact' E' h.given' cs T V x'
  refine ⟨_, b2 _ x, (d2 V x').trans ?_⟩
  rw [h.final]

/-- **C173** The gradient by the parameters of a time step is the transposed matrix of the affine function applied to the gradient by its
amplitudes. -/
theorem c173_gradient (p p' : LPar n) (A : Fin p'.ctrl.length → Fin p.ctrl.length → ℝ) (b : Fin p.ctrl.length → ℝ) (τ : List ℝ)
    (E : Fin τ.length → (Fin p.ctrl.length → ℝ) → Sup n) (E' : Fin τ.length → (Fin p'.ctrl.length → ℝ) → Sup n)
    (h : CombinedOpen p p' A b τ E E') (cs : Option (List n)) (T : Matrix (CompIdx cs) (CompIdx cs) ℂ)
    (V : Fin τ.length → Fin p'.ctrl.length → ℝ) (x x' : Solver.Pulse) :
    ∃ (g : Fin τ.length → Fin p.ctrl.length → ℝ) (g' : Fin τ.length → Fin p'.ctrl.length → ℝ),
      lindGrad cs T p τ (rowsOf fun t => mixRow A b (V t)) x = .ok (rowsOf g) ∧ lindGrad cs T p' τ (rowsOf V) x' = .ok (rowsOf g') ∧
      ∀ t k, g' t k = ∑ l, A k l * g t l := by
  obtain ⟨a, b1, -, L, b3, b4⟩ := c98_total p τ h.exact E h.given cs T (fun t => mixRow A b (V t)) x
  obtain ⟨r, d1, -, L', d3, d4⟩ := c98_total p' τ h.exact' E' h.given' cs T V x'
  refine ⟨a, r, b1, d1, grad_affine rfl A b (fun W => ?_) b3 d3 b4 d4⟩
  show 1 - entFidSup cs T (lindFinal p' τ E' W) = _
  rw [h.final]
  rfl

/-! ## Cases -/

namespace Ex173

/-- The decay rates of C98 for the amplitudes `v + 3` and `2 v`, and their derivatives. -/
def pre : Solver.Pulse → Solver.Pulse → List (List ℝ) := fun u _ => (List.range 3).map fun t => [(u.getD t []).getD 0 0 + 3, 2]

def pre' : Solver.Pulse → Solver.Pulse → List (List (List ℝ)) := fun _ _ => List.replicate 3 [[1, 0]]

/-- One control which moves both controls of the decaying qubit of C98, and the first of them in the drift. -/
noncomputable def one (L : Lapack (Fin 2 × Fin 2)) : LPar (Fin 2) :=
  ⟨L, .frechet, false, 1, [!![1, 3; 3, -1], !![1, 3; 3, -1], !![1, 3; 3, -1]], [!![0, 1 - 2 * Complex.I; 1 + 2 * Complex.I, 0]],
    ⟨none, some [!![0, 1; 0, 0], !![1, 0; 0, -1]], some pre, some pre', none, none⟩⟩

noncomputable def E' : Fin 3 → (Fin 1 → ℝ) → Sup (Fin 2) :=
  fun _ v => ((v 0 + 3 : ℝ) : ℂ) • dissOf !![0, 1; 0, 0] + (2 : ℂ) • dissOf !![1, 0; 0, -1]

theorem given (L : Lapack (Fin 2 × Fin 2)) : GivenDiss (one L) 3 E' := by
  refine .prefactor [!![0, 1; 0, 0], !![1, 0; 0, -1]] (by simp) none pre pre' rfl
    (fun _ l v => ![v (0 : Fin 1) + 3, 2] l) (fun _ _ l _ => ![1, 0] l) (fun U x => ?_) (fun U x => ?_) (fun t l => ?_)
    (fun t k l v => ?_) ?_
  · simp [pre, rowsOf, List.ofFn_succ, List.range_succ]
    exact ⟨rfl, rfl, rfl⟩
  · simp [pre', List.ofFn_succ, List.replicate_succ, one]
  · fin_cases l
    · have : Differentiable ℝ fun v : Fin 1 → ℝ => v 0 + 3 := (differentiable_pi.mp differentiable_id (0 : Fin 1)).add_const 3
      exact this
    · exact differentiable_const _
  · have key : ∀ (k : Fin 1) (l : Fin 2) (v : Fin 1 → ℝ),
        HasDerivAt (fun h : ℝ => ![(v + h • (Pi.single k 1 : Fin 1 → ℝ)) 0 + 3, 2] l) ((![1, 0] : Fin 2 → ℝ) l) 0 := by
      intro k l v
      have hk : k = 0 := Subsingleton.elim _ _
      subst hk
      fin_cases l
      · simpa using ((hasDerivAt_id (0 : ℝ)).const_add (v 0)).add_const 3
      · simpa using hasDerivAt_const (0 : ℝ) (2 : ℝ)
    exact key k l v
  · funext t v
    show _ = ∑ l : Fin 2, ((![v (0 : Fin 1) + 3, 2] l : ℝ) : ℂ) • dissOf ([!![0, 1; 0, 0], !![1, 0; 0, -1]].get l)
    rw [Fin.sum_univ_two]
    norm_num [E']

theorem combined {L : Lapack (Fin 2 × Fin 2)} (hE : L.ExpmOk) (hF : L.FrechetOk) :
    CombinedOpen (Ex170.coarse L) (one L) Ex172.mat Ex172.off [1, 2, 3] (Ex170.E 3) E' where
  exact := decay_exact hE hF
  exact' := ⟨by simp [one], rfl, by simp, rfl, hE, hF, by
    intro H hH
    simp only [one, List.mem_cons, List.not_mem_nil, or_false] at hH
    subst hH
    ext i j; fin_cases i <;> fin_cases j <;> simp [sub_eq_add_neg]⟩
  given := decay_given L
  given' := given L
  init := rfl
  ctrl := by
    obtain ⟨L₂, -, -, hE₂, -⟩ := lapack_exists (Fin 2)
    exact (Ex172.combined hE₂).ctrl
  drift := by
    obtain ⟨L₂, -, -, hE₂, -⟩ := lapack_exists (Fin 2)
    exact (Ex172.combined hE₂).drift
  diss := by
    intro t v
    have k : ∀ v : Fin 1 → ℝ, mixRow Ex172.mat Ex172.off v (0 : Fin 2) = v 0 + 3 := fun v => by simp [mixRow, Ex172.mat, Ex172.off]
    have e := k v
    show (((v (0 : Fin 1) + 3 : ℝ) : ℂ)) • dissOf !![0, 1; 0, 0] + _ = ((mixRow Ex172.mat Ex172.off v (0 : Fin 2) : ℝ) : ℂ) • dissOf !![0, 1; 0, 0] + _
    rw [e]

/-- `c173_forward`, `c173_costs` and `c173_gradient` apply. -/
example (V : Fin 3 → Fin 1 → ℝ) : ∃ (L : Lapack (Fin 2 × Fin 2)) (f : List (Sup (Fin 2))) (c : ℝ) (g : Fin 3 → Fin 2 → ℝ) (g' : Fin 3 → Fin 1 → ℝ),
    (one L).fwd [1, 2, 3] (rowsOf V) [] = .ok f ∧
    lindCosts none 1 (Ex170.coarse L) [1, 2, 3] (rowsOf fun t => mixRow Ex172.mat Ex172.off (V t)) [] = .ok c ∧
    lindCosts none 1 (one L) [1, 2, 3] (rowsOf V) [] = .ok c ∧ lindGrad none 1 (one L) [1, 2, 3] (rowsOf V) [] = .ok (rowsOf g') ∧
    ∀ t, g' t 0 = g t 0 + 2 * g t 1 := by
  obtain ⟨L, -, -, hE, hF⟩ := lapack_exists (Fin 2 × Fin 2)
  obtain ⟨f, -, h0⟩ := c173_forward _ _ _ _ _ _ _ (combined hE hF) V [] []
  obtain ⟨c, h1, h2⟩ := c173_costs _ _ _ _ _ _ _ (combined hE hF) none 1 V [] []
  obtain ⟨g, g', -, h4, h5⟩ := c173_gradient _ _ _ _ _ _ _ (combined hE hF) none 1 V [] []
  refine ⟨L, f, c, g, g', h0, h1, h2, h4, fun t => (h5 t (0 : Fin 1)).trans ((Fin.sum_univ_two _).trans ?_)⟩
  simp [Ex172.mat]

end Ex173

end Verif.Sim
