import Verif.Sim.RefinedNoise
import Verif.Cost.LindbladTotal

/-!
# C170: the time grid of open systems and the gradient

`OperationInfidelity` (cost_functions.py:1271-1316) on a `LindbladSolver` (solver_algorithms.py:1572-2105) whose time steps are divided into
`o` parts.
-/

namespace Verif.Sim
open Verif Verif.Operator Verif.Solver Verif.Cost Matrix

variable {n : Type} [Fintype n] [DecidableEq n]

/-! ## Specification -/

/-- The solver with the drift `d` and the dissipation `D` describes the system of `p` on the finer grid `τ'`: step `t` is divided into the steps
`t * o, ..., t * o + o - 1`, whose durations add up to that of step `t` and which have the same drift and dissipation. -/
structure RefinedOpen (o : Nat) (p : LPar n) (d : List (Matrix n n ℂ)) (D : Diss n) (τ τ' : List ℝ)
    (E : Fin τ.length → (Fin p.ctrl.length → ℝ) → Sup n) (E' : Fin τ'.length → (Fin p.ctrl.length → ℝ) → Sup n) : Prop where
  exact : LExact p τ
  exact' : LExact { p with drift := d, diss := D } τ'
  given : GivenDiss p τ.length E
  given' : GivenDiss { p with drift := d, diss := D } τ'.length E'
  steps : τ'.length = τ.length * o
  durations : ∀ t < τ.length, ∑ r : Fin o, τ'.getD (t * o + r) 0 = τ.getD t 0
  drift : ∀ t < τ.length, ∀ r < o, d.getD (t * o + r) 0 = p.drift.getD t 0
  diss : ∀ (t : Fin τ.length) (r : Fin o) (i : Fin τ'.length), (i : Nat) = t * o + r → E' i = E t

/-! ## Lemmas -/

theorem rows_eq {N N' C o : Nat} {V : Fin N → Fin C → ℝ} {V' : Fin N' → Fin C → ℝ} (h : Repeats o N (rowsOf V) (rowsOf V')) (t : Fin N) (r : Fin o)
    (i : Fin N') (hi : (i : Nat) = t * o + r) : V' i = V t := by
  have hrow : ∀ {A : Nat} (W : Fin A → Fin C → ℝ) (i : Fin A), (rowsOf W).getD i [] = List.ofFn (W i) := by
    intro A W i
    rw [List.getD_eq_getElem _ _ (by simp [rowsOf])]
    simp [rowsOf]
  have := h t t.2 r r.2
  rw [← hi, hrow, hrow] at this
  exact List.ofFn_injective this

theorem RefinedOpen.final {o : Nat} {p : LPar n} {d : List (Matrix n n ℂ)} {D : Diss n} {τ τ' : List ℝ}
    {E : Fin τ.length → (Fin p.ctrl.length → ℝ) → Sup n} {E' : Fin τ'.length → (Fin p.ctrl.length → ℝ) → Sup n}
    (h : RefinedOpen o p d D τ τ' E E') (V : Fin τ.length → Fin p.ctrl.length → ℝ) (V' : Fin τ'.length → Fin p.ctrl.length → ℝ)
    (hV : Repeats o τ.length (rowsOf V) (rowsOf V')) :
    lindFinal { p with drift := d, diss := D } τ' E' V' = lindFinal p τ E V := by
  unfold lindFinal
  set S' : Fin τ'.length → Sup n := fun t => NormedSpace.exp ((τ'.get t : ℂ) • Cost.stepGen { p with drift := d, diss := D } E' t (V' t)) with hS'
  have e : List.ofFn S' = List.ofFn fun i : Fin (τ.length * o) => S' (Fin.cast h.steps.symm i) := List.ofFn_congr h.steps _
  rw [e, List.ofFn_mul, List.foldl_flatten]
  refine foldl_blocks _ _ ?_ _
  rw [List.forall₂_iff_get]
  refine ⟨by simp, fun t h1 h2 F => ?_⟩
  have ht : t < τ.length := by simpa using h2
  have hlt : ∀ r : Fin o, t * o + r < τ'.length := fun r => by
    rw [h.steps]
    calc t * o + r < t * o + o := by omega
      _ = (t + 1) * o := by ring
      _ ≤ _ := Nat.mul_le_mul_right o ht
  rw [List.get_eq_getElem, List.get_eq_getElem, List.getElem_ofFn, List.getElem_ofFn]
  have e1 : (List.ofFn fun r : Fin o => S' (Fin.cast h.steps.symm ⟨t * o + r, by rw [← h.steps]; exact hlt r⟩)) =
      (List.ofFn fun r : Fin o => τ'.getD (t * o + r) 0).map fun s : ℝ => NormedSpace.exp ((s : ℂ) • Cost.stepGen p E ⟨t, ht⟩ (V ⟨t, ht⟩)) := by
    rw [List.map_ofFn]
    congr 1
    funext r
    show NormedSpace.exp _ = NormedSpace.exp _
    congr 2
    · show ((τ'[t * o + (r : Nat)]'(hlt r) : ℝ) : ℂ) = ((τ'.getD (t * o + r) 0 : ℝ) : ℂ)
      rw [List.getD_eq_getElem _ _ (hlt r)]
    · have a : V' (Fin.cast h.steps.symm ⟨t * o + r, by rw [← h.steps]; exact hlt r⟩) = V ⟨t, ht⟩ := rows_eq hV ⟨t, ht⟩ r _ rfl
      have b : E' (Fin.cast h.steps.symm ⟨t * o + r, by rw [← h.steps]; exact hlt r⟩) = E ⟨t, ht⟩ := h.diss ⟨t, ht⟩ r _ rfl
      have c : d.getD (t * o + r) 0 = p.drift.getD t 0 := h.drift t ht r r.2
      unfold Cost.stepGen
      rw [a, b]
      show supGen ((-Complex.I) • (d.getD (t * o + r) 0 + _)) _ = _
      rw [c]
  refine (congrArg (fun l => l.foldl (fun F P => P * F) F) e1).trans ?_
  rw [foldl_parts, List.sum_ofFn, h.durations t ht, List.getD_eq_getElem _ _ ht]
  rfl

/-! ## The property -/

/-- **C170** The infidelity is the same on both grids. -/
theorem c170_costs (o : Nat) (p : LPar n) (d : List (Matrix n n ℂ)) (D : Diss n) (τ τ' : List ℝ)
    (E : Fin τ.length → (Fin p.ctrl.length → ℝ) → Sup n) (E' : Fin τ'.length → (Fin p.ctrl.length → ℝ) → Sup n)
    (h : RefinedOpen o p d D τ τ' E E') (cs : Option (List n)) (T : Matrix (CompIdx cs) (CompIdx cs) ℂ)
    (U : Fin τ.length → Fin p.ctrl.length → ℝ) (U' : Fin τ'.length → Fin p.ctrl.length → ℝ) (hU : Repeats o τ.length (rowsOf U) (rowsOf U'))
    (x x' : Solver.Pulse) :
    ∃ c, lindCosts cs T p τ (rowsOf U) x = .ok c ∧ lindCosts cs T { p with drift := d, diss := D } τ' (rowsOf U') x' = .ok c := by
  obtain ⟨-, -, b2, -⟩ := c98_total p τ h.exact E h.given cs T U x
  obtain ⟨-, -, d2, -⟩ := c98_total { p with drift := d, diss := D } τ' h.exact' E' h.given' cs T U' x'
  refine ⟨_, b2 U x, (d2 U' x').trans ?_⟩
  rw [h.final U U' hU]

/-- **C170** The entry of the gradient for a step of the coarse grid is the sum of the entries for its parts. -/
theorem c170_gradient (o : Nat) (p : LPar n) (d : List (Matrix n n ℂ)) (D : Diss n) (τ τ' : List ℝ)
    (E : Fin τ.length → (Fin p.ctrl.length → ℝ) → Sup n) (E' : Fin τ'.length → (Fin p.ctrl.length → ℝ) → Sup n)
    (h : RefinedOpen o p d D τ τ' E E') (cs : Option (List n)) (T : Matrix (CompIdx cs) (CompIdx cs) ℂ)
    (U : Fin τ.length → Fin p.ctrl.length → ℝ) (U' : Fin τ'.length → Fin p.ctrl.length → ℝ) (hU : Repeats o τ.length (rowsOf U) (rowsOf U'))
    (x x' : Solver.Pulse) :
    ∃ (g : Fin τ.length → Fin p.ctrl.length → ℝ) (g' : Fin τ'.length → Fin p.ctrl.length → ℝ),
      lindGrad cs T p τ (rowsOf U) x = .ok (rowsOf g) ∧
      lindGrad cs T { p with drift := d, diss := D } τ' (rowsOf U') x' = .ok (rowsOf g') ∧
      ∀ t c, g t c = ∑ r : Fin o, g' ⟨t * o + r, by
        rw [h.steps]
        calc (t : Nat) * o + r < t * o + o := by omega
          _ = (t + 1) * o := by ring
          _ ≤ _ := Nat.mul_le_mul_right o t.2⟩ c := by
  obtain ⟨b, b1, -, L, b3, b4⟩ := c98_total p τ h.exact E h.given cs T U x
  obtain ⟨r, d1, -, L', d3, d4⟩ := c98_total { p with drift := d, diss := D } τ' h.exact' E' h.given' cs T U' x'
  refine ⟨b, r, b1, d1, grad_repeated h.steps rfl (fun A A' hA => ?_) hU b3 d3 b4 d4⟩
  show 1 - entFidSup cs T (lindFinal { p with drift := d, diss := D } τ' E' A') = _
  rw [h.final A A' hA]

/-! ## Cases -/

namespace Ex170

/-- The decay rates of C98 on the finer grid, and their derivatives. -/
def pre : Solver.Pulse → Solver.Pulse → List (List ℝ) := fun u _ => (List.range 6).map fun t => [(u.getD t []).getD 0 0, 2]

def pre' : Solver.Pulse → Solver.Pulse → List (List (List ℝ)) := fun _ _ => List.replicate 6 [[1, 0], [0, 0]]

/-- The dissipation on the finer grid. -/
noncomputable def diss : Diss (Fin 2) := ⟨none, some [!![0, 1; 0, 0], !![1, 0; 0, -1]], some pre, some pre', none, none⟩

noncomputable def coarse (L : Lapack (Fin 2 × Fin 2)) : LPar (Fin 2) := decayPar L (some decayPre) (some decayPre')

noncomputable def E (N : Nat) : Fin N → (Fin 2 → ℝ) → Sup (Fin 2) :=
  fun _ v => (v 0 : ℂ) • dissOf !![0, 1; 0, 0] + (2 : ℂ) • dissOf !![1, 0; 0, -1]

theorem given (L : Lapack (Fin 2 × Fin 2)) (d : List (Matrix (Fin 2) (Fin 2) ℂ)) :
    GivenDiss { coarse L with drift := d, diss := diss } 6 (E 6) := by
  refine .prefactor [!![0, 1; 0, 0], !![1, 0; 0, -1]] (by simp) none pre pre' rfl
    (fun _ l v => ![v (0 : Fin 2), 2] l) (fun _ k l _ => ![![1, 0], ![0, 0]] k l) (fun U x => ?_) (fun U x => ?_) (fun t l => ?_)
    (fun t k l v => ?_) ?_
  · simp [pre, rowsOf, List.ofFn_succ, List.range_succ]
    exact ⟨rfl, rfl, rfl, rfl, rfl, rfl⟩
  · simp [pre', List.ofFn_succ, List.replicate_succ, coarse, decayPar]
  · fin_cases l
    · have : Differentiable ℝ fun v : Fin 2 → ℝ => v 0 := differentiable_pi.mp differentiable_id (0 : Fin 2)
      exact this
    · exact differentiable_const _
  · have key : ∀ (k l : Fin 2) (v : Fin 2 → ℝ),
        HasDerivAt (fun h : ℝ => ![(v + h • (Pi.single k 1 : Fin 2 → ℝ)) 0, 2] l) ((![![1, 0], ![0, 0]] : Fin 2 → Fin 2 → ℝ) k l) 0 := by
      intro k l v
      fin_cases l <;> fin_cases k
      · simpa using (hasDerivAt_id (0 : ℝ)).const_add (v 0)
      · simpa using hasDerivAt_const (0 : ℝ) (v 0)
      · simpa using hasDerivAt_const (0 : ℝ) (2 : ℝ)
      · simpa using hasDerivAt_const (0 : ℝ) (2 : ℝ)
    exact key k l v
  · funext t v
    show _ = ∑ l : Fin 2, ((![v (0 : Fin 2), 2] l : ℝ) : ℂ) • dissOf ([!![0, 1; 0, 0], !![1, 0; 0, -1]].get l)
    rw [Fin.sum_univ_two]
    norm_num [E]

/-- The decaying qubit of C98, whose decay rate is its first amplitude, on a grid of six steps; the parts of a step have different lengths. -/
theorem refined {L : Lapack (Fin 2 × Fin 2)} (hE : L.ExpmOk) (hF : L.FrechetOk) :
    RefinedOpen 2 (coarse L) (List.replicate 6 !![1, 0; 0, -1]) diss [1, 2, 3] [1 / 4, 3 / 4, 1, 1, 1, 2] (E 3) (E 6) where
  exact := decay_exact hE hF
  exact' := ⟨(decay_exact hE hF).ctrl, by simp, by simp, rfl, hE, hF, (decay_exact hE hF).hermitian⟩
  given := decay_given L
  given' := given L _
  steps := rfl
  durations := by
    intro t ht
    have ht' : t < 3 := ht
    interval_cases t <;> simp [Fin.sum_univ_two] <;> norm_num
  drift := by
    intro t ht r hr
    have ht' : t < 3 := ht
    interval_cases t <;> interval_cases r <;> rfl
  diss := fun _ _ _ _ => rfl

/-- `c170_costs` and `c170_gradient` apply. -/
example (U : Fin 3 → Fin 2 → ℝ) (U' : Fin 6 → Fin 2 → ℝ) (hU : Repeats 2 3 (rowsOf U) (rowsOf U')) :
    ∃ (L : Lapack (Fin 2 × Fin 2)) (c : ℝ) (g : Fin 3 → Fin 2 → ℝ) (g' : Fin 6 → Fin 2 → ℝ),
      lindCosts none 1 (coarse L) [1, 2, 3] (rowsOf U) [] = .ok c ∧
      lindCosts none 1 { coarse L with drift := List.replicate 6 !![1, 0; 0, -1], diss := diss } [1 / 4, 3 / 4, 1, 1, 1, 2] (rowsOf U') [] = .ok c ∧
      lindGrad none 1 (coarse L) [1, 2, 3] (rowsOf U) [] = .ok (rowsOf g) ∧
      lindGrad none 1 { coarse L with drift := List.replicate 6 !![1, 0; 0, -1], diss := diss } [1 / 4, 3 / 4, 1, 1, 1, 2] (rowsOf U') [] =
        .ok (rowsOf g') ∧ ∀ c, g 1 c = g' 2 c + g' 3 c := by
  obtain ⟨L, -, -, hE, hF⟩ := lapack_exists (Fin 2 × Fin 2)
  obtain ⟨c, h1, h2⟩ := c170_costs 2 (coarse L) _ _ _ _ _ _ (refined hE hF) none 1 U U' hU [] []
  obtain ⟨g, g', h3, h4, h5⟩ := c170_gradient 2 (coarse L) _ _ _ _ _ _ (refined hE hF) none 1 U U' hU [] []
  refine ⟨L, c, g, g', h1, h2, h3, h4, fun c => ?_⟩
  have := h5 (1 : Fin 3) c
  rw [Fin.sum_univ_two] at this
  exact this

/-- The hypothesis on the amplitudes holds for repeated rows. -/
example : Repeats 2 3 (rowsOf ![![1, 2], ![3, 4], ![5, 6]]) (rowsOf ![![1, 2], ![1, 2], ![3, 4], ![3, 4], ![5, 6], ![5, 6]]) := by
  intro t ht r hr
  interval_cases t <;> interval_cases r <;> rfl

end Ex170

end Verif.Sim
