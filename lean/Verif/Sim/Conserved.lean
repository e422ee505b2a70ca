import Verif.Sim.EstimatorState
import Verif.Sim.Mirror
import Verif.Cost.Master

/-!
# C160: conserved quantities

An operator that commutes with all Hamiltonians is conserved by every pulse. Consequences for `forward_propagators`
(solver_algorithms.py:480-498), the infidelities and their gradients (cost_functions.py), with and without noise traces, and for the
Lindblad solver.
-/

namespace Verif.Sim
open Verif Verif.Operator Verif.Solver Verif.Cost Matrix

variable {n m : Type} [Fintype n] [DecidableEq n]

/-! ## Specification -/

/-- The operator `Q` commutes with the Hamiltonians of the solver. -/
structure Conserves (Q : Matrix n n ℂ) (p : SPar n m) : Prop where
  drift : ∀ H ∈ p.drift, Q * H = H * Q
  ctrl : ∀ H ∈ p.ctrl, Q * H = H * Q

/-- The table of zeros, one per time step and control. -/
def zeros (N c : Nat) : List (List ℝ) := List.replicate N (List.replicate c 0)

/-- The target operation, extended by zero to the whole space. -/
noncomputable def liftTarget (cs : Option (List n)) (T : Matrix (CompIdx cs) (CompIdx cs) ℂ) : Matrix n n ℂ :=
  inclusion cs * T * (inclusion cs)ᴴ

/-- The target bra, extended by zero to the whole space. -/
noncomputable def liftBra (cs : Option (List n)) (T : Matrix (Fin 1) (CompIdx cs) ℂ) : Matrix (Fin 1) n ℂ := T * (inclusion cs)ᴴ

/-! ## Lemmas -/

omit [DecidableEq n] in
theorem commute_hamiltonian {Q H₀ : Matrix n n ℂ} {cs : List (Matrix n n ℂ)} (h0 : Q * H₀ = H₀ * Q) (hc : ∀ H ∈ cs, Q * H = H * Q)
    (row : List ℝ) : Commute Q (hamiltonian H₀ cs row) := by
  unfold hamiltonian
  refine Commute.add_right h0 ?_
  induction row generalizing cs with
  | nil => simp
  | cons x row ih =>
    cases cs with
    | nil => simp
    | cons H cs =>
      rw [List.zipWith_cons_cons, List.sum_cons]
      exact Commute.add_right ((show Commute Q H from hc H (by simp)).smul_right _) (ih fun K hK => hc K (by simp [hK]))

theorem commute_exp {Q G : Matrix n n ℂ} (h : Commute Q G) : Commute Q (NormedSpace.exp G) := semiconj_exp h

theorem commute_step {Q H : Matrix n n ℂ} (h : Commute Q H) (s : ℝ) : Commute Q (NormedSpace.exp (((s : ℝ) : ℂ) • ((-Complex.I) • H))) :=
  commute_exp ((h.smul_right _).smul_right _)

/-- The propagators of single time steps commute with the conserved quantity. -/
theorem Computes.commute_steps {p : SPar n m} {τ : List ℝ} (h : Computes p τ) {Q : Matrix n n ℂ} (hQ : Conserves Q p) (u : Solver.Pulse)
    (hu : u.length = τ.length) : ∀ P ∈ p.bare.steps τ u, Commute Q P := by
  intro P hP
  rw [h.steps_eq u hu] at hP
  obtain ⟨i, hi, rfl⟩ := List.getElem_of_mem hP
  rw [List.getElem_zipWith, List.getElem_zip]
  exact commute_step (commute_hamiltonian (hQ.drift _ (List.getElem_mem _)) hQ.ctrl _) _

theorem commute_evolve {Q : Matrix n n ℂ} {l : List (ℝ × Matrix n n ℂ)} (h : ∀ x ∈ l, Commute Q x.2) : Commute Q (evolve l) := by
  induction l with
  | nil => simp [evolve]
  | cons x l ih =>
    rw [evolve_cons]
    exact (ih fun y hy => h y (by simp [hy])).mul_right (commute_step (h x (by simp)) _)

omit [DecidableEq n] in
theorem totals_commute {Q : Matrix n n ℂ} {p : SPar n m} (hQ : Conserves Q p) (τ : List ℝ) (u : Solver.Pulse) :
    ∀ x ∈ totals p τ u, Commute Q x.2 := by
  intro x hx
  unfold totals at hx
  obtain ⟨i, hi, rfl⟩ := List.getElem_of_mem hx
  rw [List.getElem_zipWith, List.getElem_zip]
  exact commute_hamiltonian (hQ.drift _ (List.getElem_mem _)) hQ.ctrl _

omit [DecidableEq n] in
/-- A property of the initial operator which the propagators pass on. -/
theorem forward_induction {init : Matrix n m ℂ} {ps : List (Matrix n n ℂ)} {f : List (Matrix n m ℂ)} (hf : IsForward init ps f)
    {R : Matrix n m ℂ → Prop} (h0 : R init) (hs : ∀ P ∈ ps, ∀ F, R F → R (P * F)) : ∀ F ∈ f, R F := by
  have key : ∀ i (hi : i < f.length), R f[i] := by
    intro i
    induction i with
    | zero =>
      intro hi
      have := hf.2.1
      rw [List.getElem?_eq_getElem hi] at this
      rw [Option.some.inj this]
      exact h0
    | succ i ih =>
      intro hi
      have hi' : i < ps.length := by
        have := hf.1
        omega
      obtain ⟨F, h1, h2⟩ := hf.2.2 i hi'
      rw [List.getElem?_eq_getElem (by omega)] at h1
      rw [List.getElem?_eq_getElem hi] at h2
      rw [Option.some.inj h2, ← Option.some.inj h1]
      exact hs _ (List.getElem_mem _) _ (ih _)
  intro F hF
  obtain ⟨i, hi, rfl⟩ := List.getElem_of_mem hF
  exact key i hi

/-- The overlap of an operation that commutes with `V` and a target that does not. -/
theorem overlap_zero {V U T : Matrix n n ℂ} (hV : V ∈ Matrix.unitaryGroup n ℂ) (hU : V * U = U * V) {ω : ℂ} (hω : ω ≠ 1)
    (hT : T * V = ω • (V * T)) : (Tᴴ * U).trace = 0 := by
  have h1 : V * Vᴴ = 1 := Matrix.mem_unitaryGroup_iff.mp hV
  have h2 : Vᴴ * V = 1 := Matrix.mem_unitaryGroup_iff'.mp hV
  have h3 : Vᴴ * Tᴴ = star ω • (Tᴴ * Vᴴ) := by
    have := congrArg Matrix.conjTranspose hT
    rwa [Matrix.conjTranspose_mul, Matrix.conjTranspose_smul, Matrix.conjTranspose_mul] at this
  have h4 : Tᴴ = star ω • (V * Tᴴ * Vᴴ) := by
    calc Tᴴ = V * (Vᴴ * Tᴴ) := by rw [← Matrix.mul_assoc, h1, Matrix.one_mul]
      _ = _ := by rw [h3, Matrix.mul_smul, Matrix.mul_assoc]
  have h5 : (V * Tᴴ * Vᴴ * U).trace = (Tᴴ * U).trace := by
    rw [Matrix.mul_assoc, Matrix.mul_assoc, Matrix.trace_mul_comm, Matrix.mul_assoc, Matrix.mul_assoc, ← hU, ← Matrix.mul_assoc Vᴴ V,
      h2, Matrix.one_mul]
  have h6 : (Tᴴ * U).trace = star ω * (Tᴴ * U).trace := by
    conv_lhs => rw [h4, Matrix.smul_mul, Matrix.trace_smul, h5]
    rfl
  have h7 : (1 - star ω) * (Tᴴ * U).trace = 0 := by
    rw [sub_mul, ← h6]
    ring
  rcases mul_eq_zero.mp h7 with h | h
  · refine absurd ?_ hω
    have : star ω = 1 := (sub_eq_zero.mp h).symm
    rw [← star_star ω, this, star_one]
  · exact h

theorem entFid_zero (cl : Closest) (cs : Option (List n)) (mcu : Bool) (hm : mcu = false ∨ cs = none)
    (T : Matrix (CompIdx cs) (CompIdx cs) ℂ) {V U : Matrix n n ℂ} (hV : V ∈ Matrix.unitaryGroup n ℂ) (hU : V * U = U * V) {ω : ℂ} (hω : ω ≠ 1)
    (hT : liftTarget cs T * V = ω • (V * liftTarget cs T)) : entFid cl cs T U mcu = 0 := by
  have h := overlap_zero hV hU hω hT
  have e : ((liftTarget cs T)ᴴ * U).trace = (Tᴴ * ((inclusion cs)ᴴ * U * inclusion cs)).trace := by
    unfold liftTarget
    rw [Matrix.conjTranspose_mul, Matrix.conjTranspose_mul, Matrix.conjTranspose_conjTranspose, Matrix.mul_assoc, Matrix.trace_mul_comm]
    simp only [Matrix.mul_assoc]
  rw [entFid_inclusion cl cs mcu hm, ← e, h]
  simp

theorem liftBra_mul (cs : Option (List n)) (T : Matrix (Fin 1) (CompIdx cs) ℂ) (ψ : Matrix n (Fin 1) ℂ) :
    (liftBra cs T * ψ) 0 0 = ∑ i, T 0 i * ψ (sel cs i) 0 := by
  unfold liftBra
  rw [Matrix.mul_assoc, Matrix.mul_apply]
  refine Finset.sum_congr rfl fun i _ => ?_
  congr 1
  rw [Matrix.mul_apply, Finset.sum_eq_single (sel cs i)]
  · simp [inclusion]
  · intro j _ hj
    simp [inclusion, Ne.symm hj]
  · simp

omit [DecidableEq n] in
/-- The overlap of states with different values of the conserved quantity. -/
theorem states_orthogonal {Q : Matrix n n ℂ} {B : Matrix (Fin 1) n ℂ} {ψ : Matrix n (Fin 1) ℂ} {a b : ℂ} (hψ : Q * ψ = a • ψ)
    (hB : B * Q = b • B) (hab : a ≠ b) : B * ψ = 0 := by
  have h1 : (B * Q) * ψ = b • (B * ψ) := by rw [hB, Matrix.smul_mul]
  rw [Matrix.mul_assoc, hψ, Matrix.mul_smul] at h1
  have h2 : (a - b) • (B * ψ) = 0 := by rw [sub_smul, h1, sub_self]
  exact (smul_eq_zero.mp h2).resolve_left (sub_ne_zero.mpr hab)

/-- The derivative of costs which do not depend on the pulse. -/
theorem IsGradient.constant {p : SPar n m} {τ : List ℝ} {cost : List (Matrix n m ℂ) → Except PyErr ℝ} {u : Solver.Pulse} {g : List (List ℝ)}
    (hg : IsGradient p τ cost u g) (hu : u.length = τ.length) (hrow : ∀ row ∈ u, row.length = p.ctrl.length) {a : ℝ}
    (ha : ∀ v : Solver.Pulse, v.length = τ.length → (∀ row ∈ v, row.length = p.ctrl.length) →
      (costOn cost p.bare.cfg (fresh p.bare.cfg τ v)).1 = .ok a) : g = zeros τ.length p.ctrl.length := by
  obtain ⟨g1, g2⟩ := hg
  have hl : g.length = τ.length := g1.1
  refine List.ext_getElem (by simp [zeros, hl]) fun t h1 h2 => ?_
  have hc : g[t].length = p.ctrl.length := g1.2 _ (List.getElem_mem h1)
  simp only [zeros, List.getElem_replicate]
  refine List.ext_getElem (by simp [hc]) fun c h3 h4 => ?_
  obtain ⟨G, f, e1, e2, e3⟩ := g2 t c (hl ▸ h1) (hc ▸ h3)
  have hf : f = fun _ => a := by
    funext x
    have := ha _ ((bump_shape hrow t c x).1.trans hu) (bump_shape hrow t c x).2
    rw [e2 x] at this
    exact Except.ok.inj this
  rw [hf] at e3
  unfold Cost.entry at e1
  rw [List.getElem?_eq_getElem h1, Option.bind_some, List.getElem?_eq_getElem h3] at e1
  rw [Option.some.inj e1, e3.unique (hasDerivAt_const 0 a), List.getElem_replicate]

theorem noisyStep_commute {Q : Matrix n n ℂ} {p : SPar n m} {τ : List ℝ} (hv : p.Valid τ) (hQ : Conserves Q p) {hN : List (Matrix n n ℂ)}
    (hq : ∀ H ∈ hN, Q * H = H * Q) (u : Solver.Pulse) (z : Fin hN.length → Fin (p.xTimes τ).length → ℝ) (t : Fin (p.xTimes τ).length) :
    Commute Q (noisyStep p hN τ u z t) := by
  unfold noisyStep
  refine commute_step (Commute.add_right (commute_hamiltonian ?_ hQ.ctrl _) ?_) _
  · have : (t : Nat) < p.drift.length := by rw [hv.2.1]; exact t.2
    rw [List.getD_eq_getElem _ _ this]
    exact hQ.drift _ (List.getElem_mem _)
  · exact Commute.sum_right _ _ _ fun j _ => (show Commute Q hN[j] from hq _ (List.getElem_mem j.2)).smul_right _

omit [DecidableEq n] in
theorem foldl_commute {k : Type} [Fintype k] {Q : Matrix n n ℂ} {l : List (Matrix n n ℂ)} (hl : ∀ P ∈ l, Commute Q P) {X : Matrix n k ℂ}
    {A : Matrix k k ℂ} (hX : Q * X = X * A) : Q * l.foldl (fun F P => P * F) X = l.foldl (fun F P => P * F) X * A := by
  induction l generalizing X with
  | nil => exact hX
  | cons P l ih =>
    refine ih (fun R hR => hl R (by simp [hR])) ?_
    rw [← Matrix.mul_assoc, (hl P (by simp)).eq, Matrix.mul_assoc, hX, Matrix.mul_assoc]

theorem noisyFinal_commute {k : Type} [Fintype k] {Q : Matrix n n ℂ} {p : SPar n k} {τ : List ℝ} (hv : p.Valid τ) (hQ : Conserves Q p)
    {hN : List (Matrix n n ℂ)} (hq : ∀ H ∈ hN, Q * H = H * Q) {A : Matrix k k ℂ} (hi : Q * p.init = p.init * A) (u : Solver.Pulse)
    (z : Fin hN.length → Fin (p.xTimes τ).length → ℝ) : Q * noisyFinal p hN τ u z = noisyFinal p hN τ u z * A := by
  unfold noisyFinal
  refine foldl_commute (fun P hP => ?_) hi
  obtain ⟨t, rfl⟩ := (List.mem_ofFn' _ _).mp hP
  exact noisyStep_commute hv hQ hq u z t

/-! ## The property -/

/-- **C160** Conserved quantities. If `Q` commutes with all Hamiltonians and `Q X = X A` for the initial operator or state `X`
then this holds for all forward propagators: the evolution operators commute with `Q`, eigenstates remain eigenstates. If the
Hamiltonians are Hermitian, expectation values of `Q` are constant. -/
theorem c160_conserved {k : Type} [Fintype k] (p : SPar n k) (τ : List ℝ) (h : Computes p τ) (Q : Matrix n n ℂ) (hQ : Conserves Q p)
    (u : Solver.Pulse) (hu : u.length = τ.length) (hrow : ∀ row ∈ u, row.length = p.ctrl.length) :
    ∃ f, (readFwd p.bare.cfg (fresh p.bare.cfg τ u)).1 = .ok f ∧ f.length = τ.length + 1 ∧
      (∀ A : Matrix k k ℂ, Q * p.init = p.init * A → ∀ F ∈ f, Q * F = F * A) ∧
      ((∀ H ∈ p.drift, H.IsHermitian) → (∀ H ∈ p.ctrl, H.IsHermitian) → ∀ F ∈ f, Fᴴ * Q * F = p.initᴴ * Q * p.init) := by
  obtain ⟨f, e1, e2⟩ := h.fwd u hu hrow
  have hs := h.commute_steps hQ u hu
  refine ⟨f, e1, ?_, fun A hA => forward_induction e2 hA fun P hP F hF => ?_, fun hd hc => forward_induction e2 rfl fun P hP F hF => ?_⟩
  · rw [e2.1, steps_length]
    rfl
  · rw [← Matrix.mul_assoc, (hs P hP).eq, Matrix.mul_assoc, hF, Matrix.mul_assoc]
  · have hu' : Pᴴ * P = 1 := by
      rw [h.steps_eq u hu] at hP
      obtain ⟨i, hi, rfl⟩ := List.getElem_of_mem hP
      rw [List.getElem_zipWith, List.getElem_zip]
      have := evolve_unitary (n := n) [(τ[i]'(by simp at hi; omega), hamiltonian (p.drift[i]'(by simp at hi; omega)) p.ctrl (u[i]'(by simp at hi; omega)))]
        fun x hx => by
          rw [List.mem_singleton.mp hx]
          exact hamiltonian_hermitian (hd _ (List.getElem_mem _)) hc _
      simp only [evolve, List.foldl_cons, List.foldl_nil, Matrix.mul_one] at this
      exact Matrix.mem_unitaryGroup_iff'.mp this
    have hc' : Q * P = P * Q := (hs P hP).eq
    rw [← hF, Matrix.conjTranspose_mul]
    calc Fᴴ * Pᴴ * Q * (P * F) = Fᴴ * (Pᴴ * (Q * P)) * F := by simp only [Matrix.mul_assoc]
      _ = Fᴴ * Q * F := by rw [hc', ← Matrix.mul_assoc Pᴴ P, hu', Matrix.one_mul]

/-- **C160** Operations out of reach. If a unitary `V` commutes with all Hamiltonians and the target does so only up to a factor
other than one, then no pulse achieves anything: the infidelity is one and its gradient zero. -/
theorem c160_operation (p : SPar n n) (hi : p.init = 1) (τ : List ℝ) (h : Exact p τ) (V : Matrix n n ℂ) (hV : V ∈ Matrix.unitaryGroup n ℂ)
    (hQ : Conserves V p) (cl : Closest) (cs : Option (List n)) (hcs : cs ≠ some []) (mcu : Bool) (hm : mcu = false ∨ cs = none)
    (T : Matrix (CompIdx cs) (CompIdx cs) ℂ) (ω : ℂ) (hω : ω ≠ 1) (hT : liftTarget cs T * V = ω • (V * liftTarget cs T))
    (u : Solver.Pulse) (hu : u.length = τ.length) (hrow : ∀ row ∈ u, row.length = p.ctrl.length) :
    (costOn (opCosts cl cs T mcu) p.bare.cfg (fresh p.bare.cfg τ u)).1 = .ok 1 ∧
      (gradOn (fun tr => opGrad cl cs T mcu tr.fwd tr.dP tr.rev) p.bare.cfg (fresh p.bare.cfg τ u)).1 =
        .ok (zeros τ.length p.ctrl.length) := by
  have hcost : ∀ v : Solver.Pulse, v.length = τ.length → (∀ row ∈ v, row.length = p.ctrl.length) →
      (costOn (opCosts cl cs T mcu) p.bare.cfg (fresh p.bare.cfg τ v)).1 = .ok 1 := by
    intro v hv hvr
    obtain ⟨f, e1, e2⟩ := h.computes.last_evolve v hv hvr
    rw [costOn_fwd e1]
    unfold opCosts
    rw [last_ok (l := f) e2, hi, Matrix.mul_one]
    show Except.ok (1 - entFid cl cs T (evolve (totals p τ v)) mcu) = _
    rw [entFid_zero cl cs mcu hm T hV (commute_evolve (totals_commute hQ τ v)).eq hω hT, sub_zero]
  refine ⟨hcost u hu hrow, ?_⟩
  obtain ⟨g, g1, g2, g3⟩ := c44_schroedinger p.bare τ h.valid h.stable h.method h.approx h.expm h.frechet h.steps cl cs hcs mcu hm T u u
    (bare_amps h.steps hu hrow)
  rw [g1]
  have hg : IsGradient p τ (opCosts cl cs T mcu) u g :=
    ⟨g2, fun t c ht hc => g3 t c ht hc _ fun x => bare_amps h.steps ((bump_shape hrow _ _ _).1.trans hu) (bump_shape hrow _ _ _).2⟩
  rw [hg.constant hu hrow hcost]

/-- **C160** States out of reach. If initial state and target are eigenstates of a conserved quantity with different eigenvalues, the
infidelity is one for every pulse and its gradient zero. -/
theorem c160_state (p : SPar n (Fin 1)) (τ : List ℝ) (h : Exact p τ) (Q : Matrix n n ℂ) (hQ : Conserves Q p) (a b : ℂ) (hab : a ≠ b)
    (hi : Q * p.init = a • p.init) (cs : Option (List n)) (hcs : cs ≠ some []) (T : Matrix (Fin 1) (CompIdx cs) ℂ)
    (hT : liftBra cs T * Q = b • liftBra cs T) (rescale : Bool) (u : Solver.Pulse) (hu : u.length = τ.length)
    (hrow : ∀ row ∈ u, row.length = p.ctrl.length) :
    (costOn (stateCosts cs T rescale) p.bare.cfg (fresh p.bare.cfg τ u)).1 = .ok 1 ∧
      (gradOn (fun tr => stateGrad cs T rescale tr.fwd tr.dP tr.rev) p.bare.cfg (fresh p.bare.cfg τ u)).1 =
        .ok (zeros τ.length p.ctrl.length) := by
  have hc : Computes p τ := ⟨h.ctrl, h.drift, h.steps, h.stable, Or.inl ⟨h.method, h.expm⟩⟩
  have hcost : ∀ v : Solver.Pulse, v.length = τ.length → (∀ row ∈ v, row.length = p.ctrl.length) →
      (costOn (stateCosts cs T rescale) p.bare.cfg (fresh p.bare.cfg τ v)).1 = .ok 1 := by
    intro v hv hvr
    obtain ⟨f, e1, e2⟩ := hc.last_evolve v hv hvr
    rw [costOn_fwd e1]
    have hψ : Q * (evolve (totals p τ v) * p.init) = a • (evolve (totals p τ v) * p.init) := by
      rw [← Matrix.mul_assoc, (commute_evolve (totals_commute hQ τ v)).eq, Matrix.mul_assoc, hi, Matrix.mul_smul]
    have hz := liftBra_mul cs T (evolve (totals p τ v) * p.init)
    rw [states_orthogonal hψ hT hab] at hz
    unfold stateCosts
    rw [last_ok (l := f) e2]
    have hsp : (T * selRows cs (evolve (totals p τ v) * p.init)) 0 0 = 0 := by
      refine Eq.trans ?_ hz.symm
      rw [Matrix.mul_apply]
      refine Finset.sum_congr rfl fun i _ => ?_
      cases cs <;> rfl
    show (stateFid cs T (evolve (totals p τ v) * p.init) rescale >>= fun f => pure (1 - f)) = _
    unfold stateFid
    rw [dif_pos ⟨rfl, rfl⟩]
    show Except.ok (1 - (((T * selRows cs (evolve (totals p τ v) * p.init)) 0 0).re ^ 2 +
      ((T * selRows cs (evolve (totals p τ v) * p.init)) 0 0).im ^ 2)) = _
    rw [hsp]
    simp
  refine ⟨hcost u hu hrow, ?_⟩
  obtain ⟨g, g1, g2, g3⟩ := c51_schroedinger p.bare τ h.valid h.stable h.method h.approx h.expm h.frechet h.steps cs hcs T
      rescale u u (bare_amps h.steps hu hrow)
  rw [g1]
  have hg : IsGradient p τ (stateCosts cs T rescale) u g :=
    ⟨g2, fun t c ht hc => g3 t c ht hc _ fun x => bare_amps h.steps ((bump_shape hrow _ _ _).1.trans hu) (bump_shape hrow _ _ _).2⟩
  rw [hg.constant hu hrow hcost]

/-- **C160** Noise that respects the conservation law does not help: with noise traces whose operators commute with the conserved
quantity the noise infidelities of operations and states are one. -/
theorem c160_noise (p : SPar n n) (hi : p.init = 1) (q : SPar n (Fin 1)) (τ : List ℝ) (hN : List (Matrix n n ℂ)) (h : NoisyPulse p τ hN)
    (h' : NoisyPulse q τ hN) (M : MC n n) (hb : M.base = p.cfg) (hH : M.hNoise = hN) (hp : M.ProcsOk) (ha : M.noiseAmp = none)
    (h0 : M.samples.d0 = hN.length) (h1 : M.samples.d1 = M.nTraces) (h2 : M.samples.d2 = (p.xTimes τ).length) (hK : 0 < M.nTraces)
    (M' : MC n (Fin 1)) (hb' : M'.base = q.cfg) (hH' : M'.hNoise = hN) (hp' : M'.ProcsOk) (ha' : M'.noiseAmp = none)
    (h0' : M'.samples.d0 = hN.length) (h1' : M'.samples.d1 = M'.nTraces) (h2' : M'.samples.d2 = (q.xTimes τ).length) (hK' : 0 < M'.nTraces)
    (V : Matrix n n ℂ) (hV : V ∈ Matrix.unitaryGroup n ℂ) (hQ : Conserves V p) (hQ' : Conserves V q) (hq : ∀ H ∈ hN, V * H = H * V)
    (cl : Closest) (cs : Option (List n)) (mcu : Bool) (hm : mcu = false ∨ cs = none)
    (T : Matrix (CompIdx cs) (CompIdx cs) ℂ) (ω : ℂ) (hω : ω ≠ 1) (hT : liftTarget cs T * V = ω • (V * liftTarget cs T))
    (B : Matrix (Fin 1) (CompIdx cs) ℂ) (a b : ℂ) (hab : a ≠ b) (hi' : V * q.init = a • q.init) (hB : liftBra cs B * V = b • liftBra cs B)
    (rescale : Bool) (y u y' x : Solver.Pulse) (hu : ampsOf p.cfg τ y = some u) (hu' : ampsOf q.cfg τ y = some u) :
    mcCosts cl cs T mcu false M (p.xTimes τ) y' x u = .ok 1 ∧ mcStateCosts cs B rescale false M' (q.xTimes τ) y' x u = .ok 1 := by
  have e : ∀ K : Nat, 0 < K → (∑ _k : Fin K, (1 : ℝ)) / K = 1 := by
    intro K hK
    rw [Finset.sum_const, Finset.card_univ, Fintype.card_fin, nsmul_eq_mul, mul_one]
    exact div_self (by exact_mod_cast hK.ne')
  constructor
  · subst hH
    rw [mcCosts_value p τ h.valid h.stable h.method h.expm h.times M hb hp ha h0 h1 h2 cl cs T mcu false y u y' x hu]
    rw [Finset.sum_congr rfl fun k _ => ?_, e _ hK]
    have hc := noisyFinal_commute h.valid hQ hq (A := V) (by rw [hi, Matrix.mul_one, Matrix.one_mul]) u
      (traceOf _ _ M.samples k)
    unfold traceInfidelity
    rw [if_neg (by simp), entFid_zero cl cs mcu hm T hV hc hω hT, sub_zero]
  · rw [mcStateCosts_value q τ hN h' cs B rescale false M' hb' hH' hp' ha' h0' h1' h2' y u y' x hu']
    rw [Finset.sum_congr rfl fun k _ => ?_, e _ hK']
    have hc := noisyFinal_commute h'.valid hQ' hq (A := a • (1 : Matrix (Fin 1) (Fin 1) ℂ)) (by rw [hi', Matrix.mul_smul, Matrix.mul_one]) u
      (traceOf _ _ M'.samples k)
    rw [Matrix.mul_smul, Matrix.mul_one] at hc
    have hz := liftBra_mul cs B (noisyFinal q hN τ u (traceOf _ _ M'.samples k))
    rw [states_orthogonal hc hB hab] at hz
    unfold traceStateInfidelity
    simp only [Bool.false_eq_true, if_false]
    rw [← hz]
    simp

/-! ### The Lindblad solver -/

/-- The vectorised observable in every row: computes expectation values. -/
def obsRows (Q : Matrix n n ℂ) : Sup n := Matrix.of fun _ j => Matrix.vec Qᵀ j

omit [DecidableEq n] in
theorem obsRows_mulVec (Q ρ : Matrix n n ℂ) (i : n × n) : (obsRows Q *ᵥ Matrix.vec ρ) i = (Q * ρ).trace := by
  show Matrix.vec Qᵀ ⬝ᵥ Matrix.vec ρ = _
  rw [vec_dotProduct_vec, Matrix.transpose_transpose]

omit [DecidableEq n] in
theorem trace_obs_master {Q H : Matrix n n ℂ} (hH : Commute Q H) {ws : List (ℝ × Matrix n n ℂ)}
    (hw : ∀ x ∈ ws, Commute Q x.2 ∧ Commute Q x.2ᴴ) (ρ : Matrix n n ℂ) : (Q * master H ws ρ).trace = 0 := by
  have h1 : (Q * (H * ρ)).trace = (Q * (ρ * H)).trace := by
    rw [← Matrix.mul_assoc, hH.eq, Matrix.mul_assoc, Matrix.trace_mul_comm, Matrix.mul_assoc]
  unfold master
  rw [Matrix.mul_add, Matrix.trace_add, Matrix.mul_smul, Matrix.trace_smul, Matrix.mul_sub, Matrix.trace_sub, h1, sub_self, smul_zero, zero_add]
  rw [← List.sum_map_mul_left, Matrix.trace_list_sum]
  refine List.sum_eq_zero fun x hx => ?_
  simp only [List.map_map, List.mem_map, Function.comp] at hx
  obtain ⟨w, hw', rfl⟩ := hx
  obtain ⟨c1, c2⟩ := hw w hw'
  have k1 : (Q * (w.2 * ρ * w.2ᴴ)).trace = (Q * (w.2ᴴ * w.2 * ρ)).trace := by
    rw [← Matrix.mul_assoc, Matrix.trace_mul_comm, ← Matrix.mul_assoc, ← c2.eq]
    simp only [Matrix.mul_assoc]
  have k2 : (Q * (ρ * (w.2ᴴ * w.2))).trace = (Q * (w.2ᴴ * w.2 * ρ)).trace := by
    rw [← Matrix.mul_assoc, Matrix.trace_mul_comm, ← Matrix.mul_assoc, ← (c2.mul_right c1).eq, Matrix.mul_assoc]
  rw [Matrix.mul_smul, Matrix.trace_smul, Matrix.mul_sub, Matrix.trace_sub, Matrix.mul_smul, Matrix.trace_smul, Matrix.mul_add,
    Matrix.trace_add, k1, k2]
  simp only [smul_eq_mul]
  ring

/-- **C160** (open systems) Expectation values of an operator that commutes with all Hamiltonians, all Lindblad operators and their
adjoints are constant for every initial state and every pulse. -/
theorem c160_open (p : LPar n) (Ls : List (Matrix n n ℂ)) (times : List ℝ) (u x : Solver.Pulse)
    (hL : p.Lindblads Ls times u x) (hne : times ≠ []) (hd : p.drift.length = times.length) (hu : u.length = times.length)
    (hrow : ∀ row ∈ u, row.length = p.ctrl.length) (hdH : ∀ H ∈ p.drift, H.IsHermitian) (hcH : ∀ H ∈ p.ctrl, H.IsHermitian)
    (hm : p.method = .frechet) (hE : p.L.ExpmOk) (hi : p.init = 1) (Q : Matrix n n ℂ) (hQd : ∀ H ∈ p.drift, Q * H = H * Q)
    (hQc : ∀ H ∈ p.ctrl, Q * H = H * Q) (hQL : ∀ A ∈ Ls, Q * A = A * Q ∧ Q * Aᴴ = Aᴴ * Q) :
    ∃ f, p.fwd times u x = .ok f ∧ f.length = times.length + 1 ∧
      ∀ t ≤ times.length, ∀ ρ : Matrix n n ℂ, (Q * stateAt f t ρ).trace = (Q * ρ).trace := by
  obtain ⟨G, f, h1, h2, h3, h4⟩ := LPar.gens_fin p Ls times u x hL hne hd hu hrow hdH hcH hm hE hi
  refine ⟨f, h1, h2, fun t ht ρ => ?_⟩
  have hstep : ∀ P ∈ List.ofFn fun t => NormedSpace.exp (((times[t] : ℝ) : ℂ) • G t), obsRows Q * P = obsRows Q := by
    intro P hP
    obtain ⟨t, rfl⟩ := (List.mem_ofFn' _ _).mp hP
    have hz : obsRows Q * (((times[t] : ℝ) : ℂ) • G t) = 0 * obsRows Q := by
      refine matrix_ext_mulVec fun ρ => ?_
      rw [Matrix.zero_mul, Matrix.zero_mulVec, ← Matrix.mulVec_mulVec, Matrix.smul_mulVec, h4, Matrix.mulVec_smul]
      ext i
      rw [Pi.smul_apply]
      erw [obsRows_mulVec]
      have hcom : Commute Q (hamiltonian (p.drift[t]'(by rw [hd]; exact t.2)) p.ctrl (u[t]'(by rw [hu]; exact t.2))) :=
        commute_hamiltonian (hQd _ (List.getElem_mem _)) hQc _
      have := trace_obs_master hcom (ws := (weightsAt p Ls u x t).zip Ls) (fun y hy => hQL _ (List.of_mem_zip hy).2) ρ
      rw [this]
      simp
    have := semiconj_exp hz
    rwa [NormedSpace.exp_zero, Matrix.one_mul] at this
  have hall : ∀ (l : List (Sup n)) (X : Sup n), (∀ P ∈ l, obsRows Q * P = obsRows Q) → obsRows Q * l.foldl (fun F P => P * F) X = obsRows Q * X := by
    intro l
    induction l with
    | nil => intro X _; rfl
    | cons P l ih =>
      intro X hl
      rw [List.foldl_cons, ih _ fun R hR => hl R (by simp [hR]), ← Matrix.mul_assoc, hl P (by simp)]
  unfold stateAt
  rw [List.getD_eq_getElem?_getD, h3 t ht, Option.getD_some]
  by_cases hn : Nonempty n
  · obtain ⟨i⟩ := hn
    rw [← obsRows_mulVec Q _ (i, i), ← obsRows_mulVec Q ρ (i, i)]
    erw [vec_unvec]
    rw [Matrix.mulVec_mulVec, hall _ _ fun P hP => hstep P (List.mem_of_mem_take hP), Matrix.mul_one]
  · have : IsEmpty n := not_nonempty_iff.mp hn
    simp [Matrix.trace]

/-! ### Cases of C160 -/

namespace Ex160

/-- Three levels: the controls couple the last two levels, the charge is the parity of the first. -/
def V : Matrix (Fin 3) (Fin 3) ℂ := !![1, 0, 0; 0, -1, 0; 0, 0, -1]

def X : Matrix (Fin 3) (Fin 3) ℂ := !![0, 0, 0; 0, 0, 1; 0, 1, 0]

def D : Matrix (Fin 3) (Fin 3) ℂ := !![1, 0, 0; 0, 2, 0; 0, 0, 5]

noncomputable def Y : Matrix (Fin 3) (Fin 3) ℂ := !![1, 0, 0; 0, 0, -Complex.I; 0, Complex.I, 0]

noncomputable def par {m : Type} (L : Lapack (Fin 3)) (X₀ : Matrix (Fin 3) m ℂ) : SPar (Fin 3) m :=
  ⟨L, .frechet, true, true, .none, X₀, [D, D], [X, Y], idTf, id, idAmp⟩

theorem exact {m : Type} {L : Lapack (Fin 3)} (hE : L.ExpmOk) (hF : L.FrechetOk) (X₀ : Matrix (Fin 3) m ℂ) : Exact (par L X₀) [1, 2] :=
  ⟨by simp [par], rfl, by simp, rfl, rfl, hE, hF, Or.inl ⟨rfl, rfl⟩⟩

theorem commute : V * X = X * V ∧ V * D = D * V ∧ V * Y = Y * V := by
  refine ⟨?_, ?_, ?_⟩ <;> ext i j <;> fin_cases i <;> fin_cases j <;> simp [V, X, D, Y, Matrix.mul_apply, Fin.sum_univ_three]

theorem hermitian : X.IsHermitian ∧ D.IsHermitian ∧ Y.IsHermitian := by
  refine ⟨?_, ?_, ?_⟩ <;> ext i j <;> fin_cases i <;> fin_cases j <;> simp [X, D, Y]

theorem conserves {m : Type} (L : Lapack (Fin 3)) (X₀ : Matrix (Fin 3) m ℂ) : Conserves V (par L X₀) := by
  obtain ⟨h1, h2, h3⟩ := commute
  constructor <;> intro H hH <;> simp [par] at hH
  · rw [hH, h2]
  · rcases hH with rfl | rfl
    · exact h1
    · exact h3

theorem parity : V ∈ Matrix.unitaryGroup (Fin 3) ℂ := by
  rw [Matrix.mem_unitaryGroup_iff]
  ext i j
  fin_cases i <;> fin_cases j <;> simp [V, Matrix.mul_apply, Fin.sum_univ_three, Matrix.star_eq_conjTranspose]

/-- The controls do not commute with each other: the pulse is not just an area. -/
example : X * Y ≠ Y * X := by
  intro h
  have := congrFun (congrFun h 1) 1
  simp [X, Y, Matrix.mul_apply, Fin.sum_univ_three] at this
  have h2 := congrArg Complex.im this
  norm_num at h2

noncomputable def inc : Matrix (Fin 3) (Fin 2) ℂ := inclusion (some [(0 : Fin 3), 1])

noncomputable def inc' : Matrix (Fin 3) (Fin 3) ℂ := inclusion (none : Option (List (Fin 3)))

theorem inc_eq : inc = !![1, 0; 0, 1; 0, 0] := by
  ext a b
  fin_cases a <;> fin_cases b <;> simp [inc, inclusion, sel]

theorem inc'_eq : inc' = 1 := by
  ext a b
  show (if b = a then (1 : ℂ) else 0) = _
  rw [Matrix.one_apply]
  simp only [eq_comm]

theorem target : liftTarget (some [(0 : Fin 3), 1]) !![0, 1; 1, 0] * V = (-1 : ℂ) • (V * liftTarget (some [(0 : Fin 3), 1]) !![0, 1; 1, 0]) := by
  have e : liftTarget (some [(0 : Fin 3), 1]) !![0, 1; 1, 0] = !![0, 1, 0; 1, 0, 0; 0, 0, 0] := by
    unfold liftTarget
    ext i j
    show (inc * (!![0, 1; 1, 0] : Matrix (Fin 2) (Fin 2) ℂ) * incᴴ) i j = _
    rw [inc_eq]
    fin_cases i <;> fin_cases j <;> simp [Matrix.mul_apply, Fin.sum_univ_two]
  rw [e]
  ext i j
  fin_cases i <;> fin_cases j <;> simp [V, Matrix.mul_apply, Fin.sum_univ_three]

theorem bra : liftBra (none : Option (List (Fin 3))) !![0, 1, 1] * V = (-1 : ℂ) • liftBra (none : Option (List (Fin 3))) !![0, 1, 1] := by
  have e : liftBra (none : Option (List (Fin 3))) !![0, 1, 1] = !![0, 1, 1] := by
    show (!![0, 1, 1] : Matrix (Fin 1) (Fin 3) ℂ) * inc'ᴴ = _
    rw [inc'_eq, Matrix.conjTranspose_one, Matrix.mul_one]
  rw [e]
  ext i j
  fin_cases i; fin_cases j <;> simp [V, Matrix.mul_apply, Fin.sum_univ_three]

theorem ket : V * (!![1; 0; 0] : Matrix (Fin 3) (Fin 1) ℂ) = (1 : ℂ) • !![1; 0; 0] := by
  ext i j
  fin_cases i <;> fin_cases j <;> simp [V, Matrix.mul_apply, Fin.sum_univ_three]

/-- Every pulse of two steps: the evolution commutes with the parity and conserves it, exchanging the first two levels fails
completely, and so does leaving the first level. -/
example (x y z w : ℝ) : ∃ (L : Lapack (Fin 3)) (f : List (Matrix (Fin 3) (Fin 3) ℂ)),
    let p := par L (1 : Matrix (Fin 3) (Fin 3) ℂ)
    let q := par L (!![1; 0; 0] : Matrix (Fin 3) (Fin 1) ℂ)
    let s := fresh p.bare.cfg [1, 2] [[x, y], [z, w]]
    let s' := fresh q.bare.cfg [1, 2] [[x, y], [z, w]]
    (readFwd p.bare.cfg s).1 = .ok f ∧ f.length = 3 ∧ (∀ F ∈ f, V * F = F * V) ∧ (∀ F ∈ f, Fᴴ * V * F = V) ∧
    (costOn (opCosts (fun _ A => A) (some [0, 1]) !![0, 1; 1, 0] false) p.bare.cfg s).1 = .ok 1 ∧
    (gradOn (fun tr => opGrad (fun _ A => A) (some [0, 1]) !![0, 1; 1, 0] false tr.fwd tr.dP tr.rev) p.bare.cfg s).1 = .ok [[0, 0], [0, 0]] ∧
    (costOn (stateCosts none !![0, 1, 1] false) q.bare.cfg s').1 = .ok 1 ∧
    (gradOn (fun tr => stateGrad none !![0, 1, 1] false tr.fwd tr.dP tr.rev) q.bare.cfg s').1 = .ok [[0, 0], [0, 0]] := by
  obtain ⟨L, -, -, hE, hF⟩ := lapack_exists (Fin 3)
  have h := exact hE hF (1 : Matrix (Fin 3) (Fin 3) ℂ)
  have h' := exact hE hF (!![1; 0; 0] : Matrix (Fin 3) (Fin 1) ℂ)
  obtain ⟨f, e1, e2, e3, e4⟩ := c160_conserved (par L (1 : Matrix (Fin 3) (Fin 3) ℂ)) [1, 2] h.computes V (conserves L _)
    [[x, y], [z, w]] rfl (by simp [par])
  obtain ⟨a1, a2⟩ := c160_operation (par L (1 : Matrix (Fin 3) (Fin 3) ℂ)) rfl [1, 2] h V parity (conserves L _) (fun _ A => A)
    (some [0, 1]) (by simp) false (Or.inl rfl) !![0, 1; 1, 0] (-1) (by norm_num) target [[x, y], [z, w]] rfl (by simp [par])
  obtain ⟨b1, b2⟩ := c160_state (par L (!![1; 0; 0] : Matrix (Fin 3) (Fin 1) ℂ)) [1, 2] h' V (conserves L _) 1 (-1) (by norm_num) ket none
    (by simp) !![0, 1, 1] bra false [[x, y], [z, w]] rfl (by simp [par])
  refine ⟨L, f, e1, e2, e3 V (by simp [par]), fun F hF => ?_, a1, a2, b1, b2⟩
  have := e4 (fun H hH => by simp [par] at hH; rw [hH]; exact hermitian.2.1)
    (fun H hH => by simp [par] at hH; rcases hH with rfl | rfl; exacts [hermitian.1, hermitian.2.2]) F hF
  simpa [par] using this

theorem noisy {m : Type} {L : Lapack (Fin 3)} (hE : L.ExpmOk) (X₀ : Matrix (Fin 3) m ℂ) : NoisyPulse (par L X₀) [1, 2] [X] := by
  obtain ⟨h1, h2, h3⟩ := hermitian
  refine ⟨⟨by simp [par], rfl, by simp [par]⟩, Or.inl ⟨rfl, rfl⟩, rfl, hE, by simp [par], fun H hH => ?_, fun H hH => ?_, fun H hH => ?_⟩
  · simp [par] at hH
    rw [hH]
    exact h2
  · simp [par] at hH
    rcases hH with rfl | rfl
    exacts [h1, h3]
  · rw [List.mem_singleton.mp hH]
    exact h1

/-- Seven traces of noise that couples the last two levels. -/
example (x y z w : ℝ) (v : Nat → Nat → Nat → ℝ) : ∃ L : Lapack (Fin 3),
    mcCosts (n := Fin 3) (fun _ A => A) (some [0, 1]) !![0, 1; 1, 0] false false
      ⟨(par L (1 : Matrix (Fin 3) (Fin 3) ℂ)).cfg, [X], .int 1, none, 7, ⟨1, 7, 2, v⟩⟩ [1, 2] [] [] [[x, y], [z, w]] = .ok 1 ∧
    mcStateCosts (some [(0 : Fin 3), 1]) !![0, 1] false false
      ⟨(par L (!![1; 0; 0] : Matrix (Fin 3) (Fin 1) ℂ)).cfg, [X], .int 1, none, 7, ⟨1, 7, 2, v⟩⟩ [1, 2] [] [] [[x, y], [z, w]] = .ok 1 := by
  obtain ⟨L, -, -, hE, hF⟩ := lapack_exists (Fin 3)
  have hB : liftBra (some [(0 : Fin 3), 1]) !![0, 1] * V = (-1 : ℂ) • liftBra (some [(0 : Fin 3), 1]) !![0, 1] := by
    have e : liftBra (some [(0 : Fin 3), 1]) !![0, 1] = !![0, 1, 0] := by
      unfold liftBra
      ext i j
      show ((!![0, 1] : Matrix (Fin 1) (Fin 2) ℂ) * incᴴ) i j = _
      rw [inc_eq]
      fin_cases i; fin_cases j <;> simp [Matrix.mul_apply, Fin.sum_univ_two]
    rw [e]
    ext i j
    fin_cases i; fin_cases j <;> simp [V, Matrix.mul_apply, Fin.sum_univ_three]
  refine ⟨L, c160_noise (par L (1 : Matrix (Fin 3) (Fin 3) ℂ)) rfl (par L (!![1; 0; 0] : Matrix (Fin 3) (Fin 1) ℂ)) [1, 2] [X]
    (noisy hE _) (noisy hE _) _ rfl rfl (.inl rfl) rfl rfl rfl rfl (by norm_num) _ rfl rfl (.inl rfl) rfl rfl rfl rfl (by norm_num) V parity
    (conserves L _) (conserves L _) (fun H hH => by rw [List.mem_singleton.mp hH]; exact commute.1) (fun _ A => A) (some [0, 1]) false (Or.inl rfl)
    !![0, 1; 1, 0] (-1) (by norm_num) target !![0, 1] 1 (-1) (by norm_num) ket hB false [[x, y], [z, w]] [[x, y], [z, w]] [] []
    (bare_amps (p := par L (1 : Matrix (Fin 3) (Fin 3) ℂ)) (by simp) rfl (by simp [par]))
    (bare_amps (p := par L (!![1; 0; 0] : Matrix (Fin 3) (Fin 1) ℂ)) (by simp) rfl (by simp [par]))⟩

/-- Decay and dephasing among the last two levels. -/
noncomputable def openPar (L : Lapack (Fin 3 × Fin 3)) : LPar (Fin 3) :=
  ⟨L, .frechet, false, 1, [D, D], [X, Y], ⟨none, some [!![0, 0, 0; 0, 0, 1; 0, 0, 0], V], none, none, none, none⟩⟩

/-- The population of the first level does not change: neither coherently nor by decay. -/
example (x y z w : ℝ) (ρ : Matrix (Fin 3) (Fin 3) ℂ) : ∃ (L : Lapack (Fin 3 × Fin 3)) (f : _),
    (openPar L).fwd [1, 2] [[x, y], [z, w]] [] = .ok f ∧ (V * stateAt f 2 ρ).trace = (V * ρ).trace := by
  obtain ⟨L, -, -, hE, -⟩ := lapack_exists (Fin 3 × Fin 3)
  obtain ⟨h1, h2, h3⟩ := commute
  obtain ⟨g1, g2, g3⟩ := hermitian
  obtain ⟨f, e1, -, e2⟩ := c160_open (openPar L) [!![0, 0, 0; 0, 0, 1; 0, 0, 0], V] [1, 2] [[x, y], [z, w]] []
    ⟨rfl, rfl, by simp, fun f hf => by cases hf⟩ (by simp) rfl rfl (by simp [openPar])
    (fun H hH => by simp [openPar] at hH; rw [hH]; exact g2)
    (fun H hH => by simp [openPar] at hH; rcases hH with rfl | rfl; exacts [g1, g3]) rfl hE rfl V
    (fun H hH => by simp [openPar] at hH; rw [hH]; exact h2)
    (fun H hH => by simp [openPar] at hH; rcases hH with rfl | rfl; exacts [h1, h3])
    (fun A hA => by
      simp only [List.mem_cons, List.not_mem_nil, or_false] at hA
      rcases hA with rfl | rfl <;> constructor <;> ext i j <;> fin_cases i <;> fin_cases j <;>
        simp [V, Matrix.mul_apply, Fin.sum_univ_three])
  exact ⟨L, f, e1, e2 2 le_rfl ρ⟩

end Ex160
end Verif.Sim
