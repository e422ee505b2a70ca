import Verif.Cost.NoiseTotal

/-!
# The infidelity of open systems on the Lindblad solver

`OperationInfidelity` with super operators reading a `LindbladSolver`: its gradient is the total derivative of its cost with
respect to all control amplitudes, with constant dissipation, prefactor functions or a super operator function.
-/

namespace Verif.Cost
open Verif Verif.Operator Verif.Solver Matrix

section
variable {n : Type} [Fintype n] [DecidableEq n]

/-! ## Model -/

/-- `reversed_propagators` of the Lindblad solver, solver_algorithms.py:516-534 and 640-657. -/
noncomputable def _root_.Verif.Solver.LPar.rev (p : LPar n) (times : List ℝ) (u x : Pulse) : Except PyErr (List (Sup n)) := do
  let ps ← p.props times u x
  revOf ps

/-- `frechet_deriv_propagators` of the Lindblad solver without approximation, solver_algorithms.py:500-514 and 915-980, with the
generators and directions of the Lindblad solver. -/
noncomputable def _root_.Verif.Solver.LPar.derivs (p : LPar n) (times : List ℝ) (u x : Pulse) :
    Except PyErr (List (List (Option (Option (Sup n))))) := do
  let g ← p.gens times u x
  let dirs ← lindDirs p.ctrl p.diss times u x
  let r ← traceRun (p.base dirs) true times u g
  pure r.2

/-- `OperationInfidelity.costs()` (cost_functions.py:1271-1291) with super operators on a Lindblad solver. -/
noncomputable def lindCosts (cs : Option (List n)) (T : Matrix (CompIdx cs) (CompIdx cs) ℂ) (p : LPar n) (times : List ℝ)
    (u x : Pulse) : Except PyErr ℝ := do
  let f ← p.fwd times u x
  opCostsSup cs T f

/-- The reads of the gradient, cost_functions.py:1301-1312. -/
noncomputable def lindTrace (p : LPar n) (times : List ℝ) (u x : Pulse) : Except PyErr (Trace (n × n) (n × n)) := do
  let f ← p.fwd times u x
  let r ← p.rev times u x
  let d ← p.derivs times u x
  let dP ← plainDerivs d
  pure ⟨f, dP, r⟩

/-- `OperationInfidelity.grad()` (cost_functions.py:1293-1316) with super operators on a Lindblad solver. -/
noncomputable def lindGrad (cs : Option (List n)) (T : Matrix (CompIdx cs) (CompIdx cs) ℂ) (p : LPar n) (times : List ℝ)
    (u x : Pulse) : Except PyErr (List (List ℝ)) := do
  let tr ← lindTrace p times u x
  opGradSup cs T tr.fwd tr.dP tr.rev

/-! ## Specification -/

/-- Derivative of a function of the amplitudes of one time step along one of them. -/
def AlongCtrl {c : Nat} (E : (Fin c → ℝ) → Sup n) (E' : Fin c → (Fin c → ℝ) → Sup n) : Prop :=
  ∀ k v, MatDeriv (fun h : ℝ => E (v + h • Pi.single k 1)) (E' k v) 0

/-- Specification: how the dissipation super operator `E t v` of time step `t` with amplitudes `v` may be given to the solver:
constant super operators, constant Lindblad operators, Lindblad operators with differentiable factors and their
derivatives, or a differentiable super operator function and its derivative.  The functions look at the amplitudes of the
same time step only. -/
inductive GivenDiss (p : LPar n) (N : Nat) (E : Fin N → (Fin p.ctrl.length → ℝ) → Sup n) : Prop
  | initial (S : List (Sup n)) (hS : S ≠ []) (hd : p.diss = ⟨some S, none, none, none, none, none⟩)
      (hE : E = fun _ _ => S.sum)
  | lindblad (Ls : List (Matrix n n ℂ)) (hL : Ls ≠ []) (i : Option (List (Sup n)))
      (hd : p.diss = ⟨i, some Ls, none, none, none, none⟩) (hE : E = fun _ _ => (Ls.map dissOf).sum)
  | prefactor (Ls : List (Matrix n n ℂ)) (hL : Ls ≠ []) (i : Option (List (Sup n))) (f : Pulse → Pulse → List (List ℝ))
      (f' : Pulse → Pulse → List (List (List ℝ))) (hd : p.diss = ⟨i, some Ls, some f, some f', none, none⟩)
      (w : Fin N → Fin Ls.length → (Fin p.ctrl.length → ℝ) → ℝ)
      (w' : Fin N → Fin p.ctrl.length → Fin Ls.length → (Fin p.ctrl.length → ℝ) → ℝ)
      (hf : ∀ U x, f (rowsOf U) x = List.ofFn fun t => List.ofFn fun l => w t l (U t))
      (hf' : ∀ U x, f' (rowsOf U) x = List.ofFn fun t => List.ofFn fun k => List.ofFn fun l => w' t k l (U t))
      (hw : ∀ t l, Differentiable ℝ (w t l))
      (hw' : ∀ t k l v, HasDerivAt (fun h : ℝ => w t l (v + h • Pi.single k 1)) (w' t k l v) 0)
      (hE : E = fun t v => ∑ l, (w t l v : ℂ) • dissOf (Ls.get l))
  | function (i : Option (List (Sup n))) (L : Option (List (Matrix n n ℂ))) (f : Pulse → Pulse → List (Sup n))
      (f' : Pulse → Pulse → List (List (Sup n))) (hd : p.diss = ⟨i, L, none, none, some f, some f'⟩)
      (E' : Fin N → Fin p.ctrl.length → (Fin p.ctrl.length → ℝ) → Sup n)
      (hf : ∀ U x, f (rowsOf U) x = List.ofFn fun t => E t (U t))
      (hf' : ∀ U x, f' (rowsOf U) x = List.ofFn fun t => List.ofFn fun k => E' t k (U t))
      (hE : ∀ t, MatDiff (E t)) (hE' : ∀ t, AlongCtrl (E t) (E' t))

/-- What the constructor of the solver and the choice of the exact derivative guarantee. -/
structure LExact (p : LPar n) (τ : List ℝ) : Prop where
  ctrl : p.ctrl ≠ []
  drift : p.drift.length = τ.length
  steps : τ ≠ []
  method : p.method = .frechet
  expm : p.L.ExpmOk
  frechet : p.L.FrechetOk
  hermitian : ∀ H ∈ p.ctrl, H.IsHermitian

/-- Specification: the generator of time step `t`: Hamiltonian with amplitudes `v` on both sides and the dissipation. -/
noncomputable def stepGen (p : LPar n) {N : Nat} (E : Fin N → (Fin p.ctrl.length → ℝ) → Sup n) (t : Fin N)
    (v : Fin p.ctrl.length → ℝ) : Sup n :=
  supGen ((-Complex.I) • (p.drift.getD t 0 + ∑ k, (v k : ℂ) • p.ctrl.get k)) (E t v)

/-- Specification: the product of the exponentials of all steps, applied to the initial state. -/
noncomputable def lindFinal (p : LPar n) (τ : List ℝ) (E : Fin τ.length → (Fin p.ctrl.length → ℝ) → Sup n)
    (U : Fin τ.length → Fin p.ctrl.length → ℝ) : Sup n :=
  (List.ofFn fun t => NormedSpace.exp ((τ.get t : ℂ) • stepGen p E t (U t))).foldl (fun F P => P * F) p.init

/-! ## Lemmas -/

open scoped Matrix.Norms.Operator in
/-- The derivative of the exponential along a curve only depends on the tangent. -/
theorem matDeriv_exp_curve {k : Type} [Fintype k] [DecidableEq k] {L : Lapack k} (hF : L.FrechetOk) {G : ℝ → Matrix k k ℂ}
    {D : Matrix k k ℂ} (hG : MatDeriv G D 0) : MatDeriv (fun x => NormedSpace.exp (G x)) (L.frechet (G 0) D) 0 := by
  have h2 : HasFDerivAt (𝕜 := ℝ) (NormedSpace.exp : Matrix k k ℂ → Matrix k k ℂ)
      (fderiv ℝ NormedSpace.exp (G 0)) (G 0) :=
    (NormedSpace.exp_analytic (𝕂 := ℝ) (G 0)).differentiableAt.hasFDerivAt
  have h1 : HasDerivAt G D 0 := hasDerivAt_pi.mpr fun i => hasDerivAt_pi.mpr fun j => hG i j
  have hl : MatDeriv (fun x : ℝ => G 0 + (x : ℂ) • D) D 0 := by
    intro i j
    have hx : HasDerivAt (fun x : ℝ => (x : ℂ)) 1 0 := Complex.ofRealCLM.hasDerivAt
    simpa using (hx.mul_const (D i j)).const_add (G 0 i j)
  have h3 : HasDerivAt (fun x : ℝ => G 0 + (x : ℂ) • D) D 0 :=
    hasDerivAt_pi.mpr fun i => hasDerivAt_pi.mpr fun j => hl i j
  have e1 := MatDeriv.of_hasDerivAt (h2.comp_hasDerivAt (0 : ℝ) h1)
  have h2' : HasFDerivAt (𝕜 := ℝ) (NormedSpace.exp : Matrix k k ℂ → Matrix k k ℂ)
      (fderiv ℝ NormedSpace.exp (G 0)) (G 0 + ((0 : ℝ) : ℂ) • D) := by simpa using h2
  have e2 := MatDeriv.of_hasDerivAt (h2'.comp_hasDerivAt (0 : ℝ) h3)
  have : fderiv ℝ NormedSpace.exp (G 0) D = L.frechet (G 0) D := by
    ext i j
    exact (e2 i j).unique (hF (G 0) D i j)
  rw [← this]
  exact e1

/-- What all ways to give the dissipation have in common. -/
theorem GivenDiss.common {p : LPar n} {τ : List ℝ} {E : Fin τ.length → (Fin p.ctrl.length → ℝ) → Sup n}
    (h : GivenDiss p τ.length E) (hc : p.ctrl ≠ []) :
    ∃ E' : Fin τ.length → Fin p.ctrl.length → (Fin p.ctrl.length → ℝ) → Sup n,
      (∀ t, MatDiff (E t)) ∧ (∀ t, AlongCtrl (E t) (E' t)) ∧
      ∀ (U : Fin τ.length → Fin p.ctrl.length → ℝ) x,
        (calcDiss p.diss τ (rowsOf U) x).1 = .ok (List.ofFn fun t => E t (U t)) ∧
        lindDirs p.ctrl p.diss τ (rowsOf U) x =
          .ok (List.ofFn fun t => List.ofFn fun k => E' t k (U t) + ctrlSup (p.ctrl.get k)) := by
  have h0 : ¬ p.ctrl.length = 0 := fun h => hc (List.length_eq_zero_iff.mp h)
  have hconst : ∀ A : Sup n, AlongCtrl (c := p.ctrl.length) (fun _ => A) (fun _ _ => 0) := fun A _ _ => MatDeriv.const A 0
  have hrep : ∀ A : Sup n, List.replicate τ.length A = List.ofFn fun _ : Fin τ.length => A := fun A => by simp
  have hdir : List.replicate τ.length (p.ctrl.map ctrlSup) =
      List.ofFn fun _ : Fin τ.length => List.ofFn fun k => (0 : Sup n) + ctrlSup (p.ctrl.get k) := by
    rw [← List.ofFn_const]
    congr 1
    funext _
    refine List.ext_getElem (by simp) fun i h1 h2 => by simp
  cases h with
  | initial S hS hd hE =>
    subst hE
    refine ⟨fun _ _ _ => 0, fun _ => MatDiff.const _, fun _ => hconst _, fun U x => ?_⟩
    rw [hd]
    cases S with
    | nil => exact absurd rfl hS
    | cons S rest =>
      refine ⟨?_, ?_⟩
      · simp only [calcDiss, constDiss, foldl_add_eq, List.sum_cons]
        rw [hrep]
      · simp only [lindDirs, calcDissDeriv, bind, Except.bind, pure, Except.pure, h0, if_false]
        rw [hdir]
  | lindblad Ls hL i hd hE =>
    subst hE
    refine ⟨fun _ _ _ => 0, fun _ => MatDiff.const _, fun _ => hconst _, fun U x => ?_⟩
    rw [hd]
    cases Ls with
    | nil => exact absurd rfl hL
    | cons L rest =>
      refine ⟨?_, ?_⟩
      · simp only [calcDiss, constDiss, List.map_cons, foldl_add_eq, List.sum_cons]
        rw [hrep]
      · simp only [lindDirs, calcDissDeriv, bind, Except.bind, pure, Except.pure, h0, if_false]
        rw [hdir]
  | prefactor Ls hL i f f' hd w w' hf hf' hw hw' hE =>
    subst hE
    have hcd : constDiss p.diss = .ok (Ls.map dissOf) := constDiss_lindblad _ Ls (by rw [hd]) hL
    have hwd : ∀ a : Fin Ls.length → ℝ, weighted (Ls.map dissOf) (List.ofFn a) = .ok (∑ l, (a l : ℂ) • dissOf (Ls.get l)) := by
      intro a
      rw [weighted_eq Ls _ hL (by simp), wDiss]
      have : (List.ofFn a).zip Ls = List.ofFn fun l => (a l, Ls.get l) :=
        List.ext_getElem (by simp) fun i h1 h2 => by simp
      rw [this, List.map_ofFn, List.sum_ofFn]
      rfl
    refine ⟨fun t k v => ∑ l, (w' t k l v : ℂ) • dissOf (Ls.get l), fun t i j => ?_, fun t k v i j => ?_, fun U x => ?_⟩
    · simp only [Matrix.sum_apply, Matrix.smul_apply, smul_eq_mul]
      exact Differentiable.fun_sum fun l _ => Differentiable.mul_const (Complex.ofRealCLM.differentiable.comp (hw t l)) _
    · simp only [Matrix.sum_apply, Matrix.smul_apply, smul_eq_mul]
      exact HasDerivAt.fun_sum fun l _ => ((hw' t k l v).ofReal_comp).mul_const _
    · refine ⟨?_, ?_⟩
      · unfold calcDiss
        rw [hcd, hd]
        simp only [hf]
        have : List.ofFn (fun t => List.ofFn fun l => w t l (U t)) =
          (List.ofFn fun t : Fin τ.length => t).map fun t => List.ofFn fun l => w t l (U t) := by simp [List.map_ofFn, Function.comp_def]
        rw [this, List.map_map]
        refine (allOk_map _ _ (fun t => ∑ l, (w t l (U t) : ℂ) • dissOf (Ls.get l)) fun t _ => hwd _).trans ?_
        simp [List.map_ofFn, Function.comp_def]
      · unfold lindDirs calcDissDeriv
        rw [hcd, hd]
        simp only [hf', bind, Except.bind, h0, if_false]
        have : List.ofFn (fun t => List.ofFn fun k => List.ofFn fun l => w' t k l (U t)) =
          (List.ofFn fun t : Fin τ.length => t).map fun t => (List.ofFn fun k : Fin p.ctrl.length => k).map fun k =>
            List.ofFn fun l => w' t k l (U t) := by simp [List.map_ofFn, Function.comp_def]
        rw [this, List.map_map, allOk_map _ _ (fun t => (List.ofFn fun k : Fin p.ctrl.length => k).map fun k =>
          ∑ l, (w' t k l (U t) : ℂ) • dissOf (Ls.get l)) fun t _ => by
            simp only [Function.comp, List.map_map]
            exact allOk_map _ _ _ fun k _ => hwd _]
        simp only [pure, Except.pure, List.map_map]
        congr 1
        rw [List.map_ofFn]
        congr 1
        funext t
        refine List.ext_getElem (by simp) fun i h1 h2 => by simp
  | function i L f f' hd E' hf hf' hE hE' =>
    refine ⟨E', hE, hE', fun U x => ⟨?_, ?_⟩⟩
    · rw [hd]
      simp only [calcDiss, hf]
    · rw [hd]
      simp only [lindDirs, calcDissDeriv, hf', h0, if_false, bind, Except.bind, pure, Except.pure]
      congr 1
      rw [List.map_ofFn]
      congr 1
      funext t
      refine List.ext_getElem (by simp) fun i h1 h2 => by simp

theorem matDiff_step {p : LPar n} {N : Nat} {E : Fin N → (Fin p.ctrl.length → ℝ) → Sup n} (hE : ∀ t, MatDiff (E t)) (σ : ℂ)
    (t : Fin N) : MatDiff fun U : Fin N → Fin p.ctrl.length → ℝ => NormedSpace.exp (σ • stepGen p E t (U t)) := by
  have hU : ∀ k, Differentiable ℝ fun U : Fin N → Fin p.ctrl.length → ℝ => (U t k : ℂ) := fun k =>
    Complex.ofRealCLM.differentiable.comp ((differentiable_pi.mp (differentiable_pi.mp
      (differentiable_id (𝕜 := ℝ) (E := Fin N → Fin p.ctrl.length → ℝ)) t)) k)
  have hH : MatDiff fun U : Fin N → Fin p.ctrl.length → ℝ =>
      (-Complex.I) • (p.drift.getD t 0 + ∑ k, (U t k : ℂ) • p.ctrl.get k) := fun i j => by
    simp only [Matrix.smul_apply, Matrix.add_apply, Matrix.sum_apply, smul_eq_mul]
    exact Differentiable.const_mul (Differentiable.const_add _ (Differentiable.fun_sum fun k _ =>
      Differentiable.mul_const (hU k) _)) _
  refine MatDiff.exp fun a b => ?_
  obtain ⟨i, k⟩ := a
  obtain ⟨j, l⟩ := b
  simp only [stepGen, supGen, conjM, Matrix.smul_apply, Matrix.add_apply, kroneckerMap_apply, Matrix.map_apply, smul_eq_mul]
  refine Differentiable.const_mul (Differentiable.add (Differentiable.add ?_ ?_) ?_) _
  · exact Differentiable.const_mul (hH k l) _
  · exact Differentiable.mul_const (hH i j).star _
  · have : Differentiable ℝ fun U : Fin N → Fin p.ctrl.length → ℝ => U t :=
      differentiable_pi.mp differentiable_id t
    exact (hE t (i, k) (j, l)).comp this

/-- The final propagator is a differentiable function of all amplitudes. -/
theorem lindFinal_diff {p : LPar n} {τ : List ℝ} {E : Fin τ.length → (Fin p.ctrl.length → ℝ) → Sup n}
    (hE : ∀ t, MatDiff (E t)) : MatDiff (lindFinal p τ E) := by
  have := foldl_diff (n := n × n) (m := n × n) (List.ofFn fun t =>
    fun U : Fin τ.length → Fin p.ctrl.length → ℝ => NormedSpace.exp ((τ.get t : ℂ) • stepGen p E t (U t))) (by
      intro P hP
      obtain ⟨t, rfl⟩ := (List.mem_ofFn' _ _).mp hP
      exact matDiff_step hE _ t) (fun _ => p.init) (MatDiff.const _)
  simp only [List.map_ofFn, Function.comp_def] at this
  exact this

/-- The propagators of all steps. -/
noncomputable def lindSteps (p : LPar n) (τ : List ℝ) (E : Fin τ.length → (Fin p.ctrl.length → ℝ) → Sup n)
    (U : Fin τ.length → Fin p.ctrl.length → ℝ) : List (Sup n) :=
  List.ofFn fun t => NormedSpace.exp ((τ.get t : ℂ) • stepGen p E t (U t))

theorem lind_gens {p : LPar n} {τ : List ℝ} (h : LExact p τ) {E : Fin τ.length → (Fin p.ctrl.length → ℝ) → Sup n}
    (U : Fin τ.length → Fin p.ctrl.length → ℝ) (x : Pulse)
    (hd : (calcDiss p.diss τ (rowsOf U) x).1 = .ok (List.ofFn fun t => E t (U t))) :
    p.gens τ (rowsOf U) x = .ok (List.ofFn fun t => stepGen p E t (U t)) := by
  obtain ⟨hr1, hr2⟩ := rowsOf_shape U
  have hgl : (schroedGens p.drift p.ctrl (rowsOf U)).length = τ.length := by rw [schroedGens_length, h.drift]
  have hgne : schroedGens p.drift p.ctrl (rowsOf U) ≠ [] := by
    intro h0
    rw [h0] at hgl
    exact h.steps (List.length_eq_zero_iff.mp hgl.symm)
  unfold LPar.gens lindGens
  rw [hd]
  simp only [bind, Except.bind]
  rw [if_neg hgne, if_neg (by simp [hgl])]
  congr 1
  refine List.ext_getElem (by simp [hgl]) fun t h1 h2 => ?_
  have ht : t < τ.length := by simpa using h2
  have h5 : t < p.drift.length := by rw [h.drift]; exact ht
  have h6 : t < (rowsOf U).length := by rw [hr1]; exact ht
  have hG := schroedGens_getElem p.drift p.ctrl (rowsOf U) t _ _ (List.getElem?_eq_getElem h5)
    (List.getElem?_eq_getElem h6) (hr2 _ (List.getElem_mem h6))
  rw [List.getElem?_eq_getElem (by omega)] at hG
  simp only [Option.some.injEq] at hG
  have hrow : (rowsOf U)[t] = List.ofFn (U ⟨t, ht⟩) := by simp [rowsOf]
  rw [List.getElem_zipWith, hG, hrow, hamiltonian_sum]
  simp [stepGen, List.getElem?_eq_getElem h5]

/-- Everything the cost function and its gradient read. -/
theorem lind_reads {p : LPar n} {τ : List ℝ} (h : LExact p τ) {E : Fin τ.length → (Fin p.ctrl.length → ℝ) → Sup n}
    {E' : Fin τ.length → Fin p.ctrl.length → (Fin p.ctrl.length → ℝ) → Sup n}
    (U : Fin τ.length → Fin p.ctrl.length → ℝ) (x : Pulse)
    (hd : (calcDiss p.diss τ (rowsOf U) x).1 = .ok (List.ofFn fun t => E t (U t)))
    (hd' : lindDirs p.ctrl p.diss τ (rowsOf U) x =
      .ok (List.ofFn fun t => List.ofFn fun k => E' t k (U t) + ctrlSup (p.ctrl.get k))) :
    ∃ tr : Trace (n × n) (n × n), lindTrace p τ (rowsOf U) x = .ok tr ∧ p.fwd τ (rowsOf U) x = .ok tr.fwd ∧
      tr.Of p.init (lindSteps p τ E U) p.ctrl.length ∧
      ∀ (t : Fin τ.length) (k : Fin p.ctrl.length), tr.derivAt t k = some (p.L.frechet ((τ.get t : ℂ) • stepGen p E t (U t))
        ((τ.get t : ℂ) • (E' t k (U t) + ctrlSup (p.ctrl.get k)))) := by
  have hg := lind_gens h U x hd
  have hmo : p.method ≠ .other := by rw [h.method]; simp
  obtain ⟨ps, f, h1, h2, h3, h4⟩ := p.run_ok hmo τ (rowsOf U) x _ hg (by simp)
  have hps : ps = lindSteps p τ E U := by
    rw [h3]
    refine List.ext_getElem (by simp [lindSteps]) fun t k1 k2 => ?_
    have ht : t < τ.length := by simpa using k1
    rw [List.getElem_map, List.getElem_range, propOf_base p h.method h.expm]
    simp [lindSteps, ht]
  have hpsne : ps ≠ [] := by
    rw [hps]
    intro h0
    have := congrArg List.length h0
    simp only [lindSteps, List.length_ofFn, List.length_nil] at this
    exact h.steps (List.length_eq_zero_iff.mp this)
  obtain ⟨r, k1, k2⟩ := revOf_isReversed ps hpsne
  set dirs : List (List (Sup n)) := List.ofFn fun t => List.ofFn fun k => E' t k (U t) + ctrlSup (p.ctrl.get k) with hdirs
  set gs : List (Sup n) := List.ofFn fun t => stepGen p E t (U t) with hgs
  have hcells := cellsD_ok (withGens (p.base dirs) gs) hmo τ (rowsOf U) (by simp [withGens, hgs]) (by
    intro t ht
    refine ⟨List.ofFn fun k => E' ⟨t, ht⟩ k (U ⟨t, ht⟩) + ctrlSup (p.ctrl.get k), ?_, ?_, by rw [List.length_ofFn]; exact le_refl p.ctrl.length⟩
    · show dirs[t]? = _
      rw [hdirs, List.getElem?_ofFn, dif_pos ht]
    · intro h0
      have := congrArg List.length h0
      simp only [List.length_ofFn, List.length_nil] at this
      exact h.ctrl (List.length_eq_zero_iff.mp this))
  have htr := traceRun_derivs (withGens (p.base dirs) gs) rfl τ (rowsOf U)
  rw [show (withGens (p.base dirs) gs).gens (rowsOf U) = gs from rfl, traceRun_withGens] at htr
  have hsd : specDeriv (withGens (p.base dirs) gs) τ (rowsOf U) = .ok (byControl p.ctrl.length
      ((cellsD (withGens (p.base dirs) gs) τ (rowsOf U)).1.map Prod.snd)) := by
    simp only [specDeriv, show (withGens (p.base dirs) gs).approx = .none from rfl, hcells, orErr]
    rfl
  rw [hsd] at htr
  have hder : p.derivs τ (rowsOf U) x = .ok (byControl p.ctrl.length
      ((cellsD (withGens (p.base dirs) gs) τ (rowsOf U)).1.map Prod.snd)) := by
    unfold LPar.derivs
    rw [hg, hd']
    simp only [bind, Except.bind]
    cases hrun : traceRun (p.base dirs) true τ (rowsOf U) gs with
    | error e => rw [hrun] at htr; simp [Except.map] at htr
    | ok out =>
      rw [hrun] at htr
      simp only [Except.map, Except.ok.injEq] at htr
      simp only [pure, Except.pure, htr]
  have hpd : plainDerivs (byControl p.ctrl.length ((cellsD (withGens (p.base dirs) gs) τ (rowsOf U)).1.map Prod.snd)) =
      .ok ((List.range p.ctrl.length).map fun c => (List.range τ.length).map fun t =>
        p.L.frechet ((τ.getD t 0 : ℂ) • gs.getD t 0) ((τ.getD t 0 : ℂ) • (dirs.getD t []).getD c 0)) := by
    unfold plainDerivs byControl
    rw [hcells, List.map_map]
    refine allOk_map _ _ _ fun c hc => ?_
    have hc' := List.mem_range.mp hc
    simp only [Function.comp, List.map_map]
    refine allOk_map _ _ _ fun t ht => ?_
    have ht' := List.mem_range.mp ht
    have hdg : (withGens (p.base dirs) gs).dirs τ (rowsOf U) = dirs := rfl
    have hgg : (withGens (p.base dirs) gs).gens (rowsOf U) = gs := rfl
    have hdl : dirs.getD t [] = List.ofFn fun k => E' ⟨t, ht'⟩ k (U ⟨t, ht'⟩) + ctrlSup (p.ctrl.get k) := by
      rw [List.getD_eq_getElem?_getD, hdirs, List.getElem?_ofFn, dif_pos ht']
      rfl
    have hcl : c < (dirs.getD t []).length := by rw [hdl]; simpa using hc'
    simp only [Function.comp, hdg, hgg, List.getElem?_map, List.getElem?_eq_getElem hcl, Option.map_some]
    simp only [gradOf, dexpGrad, show (withGens (p.base dirs) gs).method = .frechet from h.method, dexp,
      List.getD_eq_getElem _ _ hcl]
    rfl
  refine ⟨⟨f, (List.range p.ctrl.length).map fun c => (List.range τ.length).map fun t =>
    p.L.frechet ((τ.getD t 0 : ℂ) • gs.getD t 0) ((τ.getD t 0 : ℂ) • (dirs.getD t []).getD c 0), r⟩, ?_, h2, ⟨hps ▸ h4, hps ▸ k2, ?_⟩, fun t k => ?_⟩
  · unfold lindTrace LPar.rev
    rw [h2, hder, h1]
    simp only [bind, Except.bind, hpd, k1, pure, Except.pure]
  · refine ⟨by simp, fun row hrow => ?_⟩
    obtain ⟨c, -, rfl⟩ := List.mem_map.mp hrow
    simp [lindSteps]
  · simp [Trace.derivAt, hgs, hdirs]

theorem entFidSup_diff {V : Type} [NormedAddCommGroup V] [NormedSpace ℝ V] (cs : Option (List n))
    (T : Matrix (CompIdx cs) (CompIdx cs) ℂ) {F : V → Sup n} (hF : MatDiff F) :
    Differentiable ℝ fun x => entFidSup cs T (F x) := by
  have hre : ∀ {f : V → ℂ}, Differentiable ℝ f → Differentiable ℝ fun x => (f x).re := fun h =>
    Complex.reCLM.differentiable.comp h
  cases cs with
  | none =>
    simp only [entFidSup, div_eq_mul_inv]
    exact Differentiable.mul_const (Differentiable.mul_const (hre ((MatDiff.const _).mul hF).trace) _) _
  | some l =>
    simp only [entFidSup, div_eq_mul_inv]
    exact Differentiable.mul_const (Differentiable.mul_const (hre ((MatDiff.const _).mul hF).trace) _) _

/-! ## C98 -/

/-- **C98** For every array of amplitudes the infidelity of an open system is one minus the entanglement fidelity of the
product of the exponentials of the Lindblad generators, and the table returned by `grad()` is its total derivative with
respect to all amplitudes. -/
theorem c98_total (p : LPar n) (τ : List ℝ) (h : LExact p τ) (E : Fin τ.length → (Fin p.ctrl.length → ℝ) → Sup n)
    (hE : GivenDiss p τ.length E) (cs : Option (List n)) (T : Matrix (CompIdx cs) (CompIdx cs) ℂ)
    (U : Fin τ.length → Fin p.ctrl.length → ℝ) (x : Pulse) :
    ∃ g : Fin τ.length → Fin p.ctrl.length → ℝ, lindGrad cs T p τ (rowsOf U) x = .ok (rowsOf g) ∧
      (∀ V x, lindCosts cs T p τ (rowsOf V) x = .ok (1 - entFidSup cs T (lindFinal p τ E V))) ∧
      ∃ L : (Fin τ.length → Fin p.ctrl.length → ℝ) →L[ℝ] ℝ,
        HasFDerivAt (fun V => 1 - entFidSup cs T (lindFinal p τ E V)) L U ∧ ∀ V, L V = ∑ t, ∑ k, g t k * V t k := by
  obtain ⟨E', hE1, hE2, hE3⟩ := hE.common h.ctrl
  have hlast : ∀ (V : Fin τ.length → Fin p.ctrl.length → ℝ) f, IsForward p.init (lindSteps p τ E V) f →
      f.getLast? = some (lindFinal p τ E V) := by
    intro V f hf
    rw [List.getLast?_eq_getElem?, hf.1, Nat.add_sub_cancel, isForward_unique hf _ le_rfl, List.take_length]
    rfl
  have hcost : ∀ V x, lindCosts cs T p τ (rowsOf V) x = .ok (1 - entFidSup cs T (lindFinal p τ E V)) := by
    intro V x
    obtain ⟨tr, -, h2, h3, -⟩ := lind_reads h V x (hE3 V x).1 (hE3 V x).2
    unfold lindCosts
    rw [h2]
    simp only [bind, Except.bind, opCostsSup]
    rw [last_ok (hlast V _ h3.forward)]
    rfl
  obtain ⟨tr, h1, h2, h3, h4⟩ := lind_reads h U x (hE3 U x).1 (hE3 U x).2
  obtain ⟨g, e1, e2, e3⟩ := c44_gradient_super_operator cs T p.init (lindSteps p τ E U) p.ctrl.length
    (List.length_pos_iff.mpr h.ctrl) tr h3
  have hlen : (lindSteps p τ E U).length = τ.length := by simp [lindSteps]
  rw [hlen] at e2
  obtain ⟨G, hG, L, hL1, hL2⟩ := total_of_entries (fun V => 1 - entFidSup cs T (lindFinal p τ E V))
    (Differentiable.const_sub (entFidSup_diff cs T (lindFinal_diff hE1)) 1) U g e2 (fun t k => by
      have hstep : ∀ y : ℝ, lindSteps p τ E (U + y • unitAmp t k) = (lindSteps p τ E U).set t
          (NormedSpace.exp ((τ.get t : ℂ) • stepGen p E t (U t + y • Pi.single k 1))) := by
        intro y
        refine List.ext_getElem (by simp [lindSteps]) fun i i1 i2 => ?_
        have hi : i < τ.length := by simpa [lindSteps] using i1
        rw [List.getElem_set]
        split
        · rename_i hti
          have : t = ⟨i, hi⟩ := Fin.ext hti
          subst this
          simp [lindSteps, unitAmp]
        · rename_i hti
          have : (⟨i, hi⟩ : Fin τ.length) ≠ t := fun h0 => hti (by rw [← h0])
          simp [lindSteps, unitAmp, Pi.single_eq_of_ne this]
      have hreads := fun y : ℝ => lind_reads h (U + y • unitAmp t k) x (hE3 _ x).1 (hE3 _ x).2
      choose trs _ _ hof _ using hreads
      have hgen : MatDeriv (fun y : ℝ => stepGen p E t (U t + y • Pi.single k 1))
          (E' t k (U t) + ctrlSup (p.ctrl.get k)) 0 := by
        refine (matDeriv_supGen (p.drift.getD t 0 + ∑ j, (U t j : ℂ) • p.ctrl.get j) (p.ctrl.get k)
          (h.hermitian _ (List.get_mem _ _)) (hE2 t k (U t))).congr (fun y => ?_) rfl
        unfold stepGen
        congr 2
        rw [add_assoc]
        congr 1
        have : ∀ j, ((U t + y • (Pi.single k 1 : Fin p.ctrl.length → ℝ)) j : ℂ) • p.ctrl.get j =
            (U t j : ℂ) • p.ctrl.get j + (if j = k then (y : ℂ) • p.ctrl.get k else 0) := by
          intro j
          by_cases hj : j = k
          · subst hj
            simp [add_smul]
          · simp [hj, Pi.single_eq_of_ne hj]
        simp only [this, Finset.sum_add_distrib, Finset.sum_ite_eq', Finset.mem_univ, if_true]
      have hexp := matDeriv_exp_curve h.frechet (hgen.smul (τ.get t : ℂ))
      simp only [zero_smul, add_zero] at hexp
      obtain ⟨G, cost, k1, k2, -, k4⟩ := e3 t k (fun y => NormedSpace.exp ((τ.get t : ℂ) • stepGen p E t (U t + y • Pi.single k 1)))
        _ (fun y => (trs y).fwd) ⟨fun y => by rw [← hstep]; exact (hof y).forward, by
          simp [lindSteps], hexp⟩ (h4 t k)
      refine ⟨G, k1, ?_⟩
      have hcx : cost = fun y => 1 - entFidSup cs T (lindFinal p τ E (U + y • unitAmp t k)) := by
        funext y
        have := k2 y
        unfold opCostsSup at this
        rw [last_ok (hlast _ _ (hof y).forward)] at this
        exact (Except.ok.inj this).symm
      rw [hcx] at k4
      exact k4)
  refine ⟨G, ?_, hcost, L, hL1, hL2⟩
  unfold lindGrad
  rw [h1]
  simp only [bind, Except.bind]
  rw [e1, hG]

/-! ### A case of C98 -/

/-- The decaying qubit whose decay rate is its first control amplitude. -/
theorem decay_given (L : Lapack (Fin 2 × Fin 2)) : GivenDiss (decayPar L (some decayPre) (some decayPre')) 3
    fun (_ : Fin 3) (v : Fin 2 → ℝ) => (v 0 : ℂ) • dissOf !![0, 1; 0, 0] + (2 : ℂ) • dissOf !![1, 0; 0, -1] := by
  refine .prefactor [!![0, 1; 0, 0], !![1, 0; 0, -1]] (by simp) none decayPre decayPre' rfl
    (fun _ l v => ![v (0 : Fin 2), 2] l) (fun _ k l _ => ![![1, 0], ![0, 0]] k l) (fun U x => ?_) (fun U x => ?_) (fun t l => ?_)
    (fun t k l v => ?_) ?_
  · simp [decayPre, rowsOf, List.ofFn_succ, List.range_succ]
    exact ⟨rfl, rfl, rfl⟩
  · simp [decayPre', List.ofFn_succ, List.replicate_succ, decayPar]
  · fin_cases l
    · have : Differentiable ℝ fun v : Fin 2 → ℝ => v 0 := differentiable_pi.mp differentiable_id (0 : Fin 2)
      exact this
    · exact differentiable_const _
  · have key : ∀ (k l : Fin 2) (v : Fin 2 → ℝ),
        HasDerivAt (fun h : ℝ => ![(v + h • (Pi.single k 1 : Fin 2 → ℝ)) 0, 2] l) ((![![1, 0], ![0, 0]] : Fin 2 → Fin 2 → ℝ) k l) 0 := by
      intro k l v
      fin_cases l <;> fin_cases k
      · simpa using (hasDerivAt_id (0 : ℝ)).const_add (v 0)
      · simpa using hasDerivAt_const (0 : ℝ) (v 0)
      · simpa using hasDerivAt_const (0 : ℝ) (2 : ℝ)
      · simpa using hasDerivAt_const (0 : ℝ) (2 : ℝ)
    exact key k l v
  · funext t v
    show _ = ∑ l : Fin 2, ((![v (0 : Fin 2), 2] l : ℝ) : ℂ) • dissOf ([!![0, 1; 0, 0], !![1, 0; 0, -1]].get l)
    rw [Fin.sum_univ_two]
    norm_num

theorem decay_exact {L : Lapack (Fin 2 × Fin 2)} (hE : L.ExpmOk) (hF : L.FrechetOk) :
    LExact (decayPar L (some decayPre) (some decayPre')) [1, 2, 3] :=
  ⟨by simp [decayPar], rfl, by simp, rfl, hE, hF, decay_ctrl⟩

/-- `c98_total` applies. -/
example (U : Fin 3 → Fin 2 → ℝ) : ∃ (L : Lapack (Fin 2 × Fin 2)) (g : Fin 3 → Fin 2 → ℝ),
    lindGrad none 1 (decayPar L (some decayPre) (some decayPre')) [1, 2, 3] (rowsOf U) [] = .ok (rowsOf g) := by
  obtain ⟨L, -, -, hE, hF⟩ := lapack_exists (Fin 2 × Fin 2)
  obtain ⟨g, h, -⟩ := c98_total _ _ (decay_exact hE hF) _ (decay_given L) none 1 U []
  exact ⟨L, g, h⟩

end
end Verif.Cost
