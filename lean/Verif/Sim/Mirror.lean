import Verif.Sim.Truncation

/-!
# C158: pulses played backwards

A solver with the transposed Hamiltonians, whose time steps, drift Hamiltonians and amplitudes are those of another solver in
opposite order (time reversal).  `SchroedingerSolver` (solver_algorithms.py:633-795), `OperationInfidelity`
(cost_functions.py:1171-1316), `StateInfidelity` (cost_functions.py:960-1038) and `LeakageError` (cost_functions.py:1611-1691).
-/

namespace Verif.Sim
open Verif Verif.Transfer Verif.Operator Verif.Solver Verif.Cost Matrix

variable {n m k : Type} [Fintype n] [DecidableEq n]

/-! ## Specification -/

/-- The system that evolves backwards: transposed Hamiltonians, the drift of the last time step first. -/
def _root_.Verif.Solver.SPar.mirrored (p : SPar n m) (init : Matrix n k ℂ) : SPar n k :=
  ⟨p.L, p.method, p.skew, p.calcDeriv, p.approx, init, (p.drift.map fun H => Hᵀ).reverse, p.ctrl.map fun H => Hᵀ, p.tf, p.xTimes, p.amp⟩

/-! ## Lemmas -/

omit [Fintype n] [DecidableEq n] in
theorem hamiltonian_transpose (H₀ : Matrix n n ℂ) (cs : List (Matrix n n ℂ)) (row : List ℝ) :
    hamiltonian H₀ᵀ (cs.map fun H => Hᵀ) row = (hamiltonian H₀ cs row)ᵀ := by
  unfold hamiltonian
  rw [Matrix.transpose_add]
  congr 1
  induction row generalizing cs with
  | nil => simp
  | cons x row ih =>
    cases cs with
    | nil => simp
    | cons H cs =>
      rw [List.map_cons, List.zipWith_cons_cons, List.sum_cons, ih, List.zipWith_cons_cons, List.sum_cons, Matrix.transpose_add,
        Matrix.transpose_smul]

theorem evolve_cons (x : ℝ × Matrix n n ℂ) (l : List (ℝ × Matrix n n ℂ)) :
    evolve (x :: l) = evolve l * NormedSpace.exp (((x.1 : ℝ) : ℂ) • ((-Complex.I) • x.2)) := by
  induction l using List.reverseRecOn with
  | nil => simp [evolve]
  | append_singleton l y ih =>
    rw [← List.cons_append, evolve_append, ih, evolve_append, Matrix.mul_assoc]

theorem evolve_mirror (l : List (ℝ × Matrix n n ℂ)) : evolve (l.map fun x => (x.1, x.2ᵀ)).reverse = (evolve l)ᵀ := by
  induction l with
  | nil => simp [evolve]
  | cons x l ih =>
    rw [List.map_cons, List.reverse_cons, evolve_append, ih, evolve_cons, Matrix.transpose_mul, ← Matrix.exp_transpose]
    simp

theorem zipWith_mirror {α β γ : Type} (f : α → β → γ) (l : List α) (r : List β) (h : l.length = r.length) :
    List.zipWith f l.reverse r.reverse = (List.zipWith f l r).reverse := by
  induction l generalizing r with
  | nil => simp
  | cons a l ih =>
    cases r with
    | nil => simp at h
    | cons b r =>
      rw [List.reverse_cons, List.reverse_cons, List.zipWith_append (by simpa using h), ih r (by simpa using h)]
      simp

omit [Fintype n] [DecidableEq n] in
theorem totals_mirror (p : SPar n m) (X : Matrix n k ℂ) (τ : List ℝ) (u : Solver.Pulse) (hd : p.drift.length = τ.length)
    (hu : u.length = τ.length) :
    totals (p.mirrored X) τ.reverse u.reverse = ((totals p τ u).map fun x => (x.1, x.2ᵀ)).reverse := by
  have h1 : (p.mirrored X).drift.zip u.reverse = ((p.drift.zip u).map fun a => (a.1ᵀ, a.2)).reverse := by
    show List.zip (p.drift.map fun H => Hᵀ).reverse u.reverse = _
    rw [List.zip_eq_zipWith, zipWith_mirror _ _ _ (by simp [hd, hu])]
    congr 1
    rw [List.zip_eq_zipWith, List.map_zipWith, List.zipWith_map_left]
  unfold totals
  rw [h1, zipWith_mirror _ _ _ (by simp [hd, hu]), List.zipWith_map_right, List.map_zipWith]
  congr 2
  funext s a
  show (s, hamiltonian a.1ᵀ (p.ctrl.map fun H => Hᵀ) a.2) = _
  rw [hamiltonian_transpose]

theorem Computes.mirrored {p : SPar n m} {τ : List ℝ} (h : Computes p τ) (X : Matrix n k ℂ) : Computes (p.mirrored X) τ.reverse := by
  have h1 : Computes { p with ctrl := p.ctrl.map fun H => Hᵀ } τ := by
    refine h.withCtrl _ (by simpa using h.ctrl) fun hm H hH => ?_
    rcases h.method with g | g
    · rw [g.1] at hm
      cases hm
    · obtain ⟨K, hK, rfl⟩ := List.mem_map.mp hH
      exact (g.2.2.2.2 K hK).transpose
  refine ⟨h1.ctrl, by simp [SPar.mirrored, h.drift], by simpa using h.steps, h1.stable, ?_⟩
  rcases h1.method with g | g
  · exact Or.inl g
  · refine Or.inr ⟨g.1, g.2.1, g.2.2.1, fun H hH => ?_, g.2.2.2.2⟩
    obtain ⟨K, hK, rfl⟩ := List.mem_map.mp (List.mem_reverse.mp hH)
    exact (g.2.2.2.1 K hK).transpose

theorem Computes.last_evolve {p : SPar n m} {τ : List ℝ} (h : Computes p τ) (u : Solver.Pulse) (hu : u.length = τ.length)
    (hrow : ∀ row ∈ u, row.length = p.ctrl.length) :
    ∃ f, (readFwd p.bare.cfg (fresh p.bare.cfg τ u)).1 = .ok f ∧ f.getLast? = some (evolve (totals p τ u) * p.init) := by
  obtain ⟨f, e1, e2⟩ := h.fwd u hu hrow
  obtain ⟨g, e3, e4⟩ := (h.withInit (1 : Matrix n n ℂ)).fwd u hu hrow
  obtain ⟨g', e5, e6⟩ := (h.withInit (1 : Matrix n n ℂ)).final_evolve u hu hrow
  rw [e3] at e5
  cases e5
  refine ⟨f, e1, ?_⟩
  have hs : SPar.steps (SPar.bare ⟨p.L, p.method, p.skew, p.calcDeriv, p.approx, (1 : Matrix n n ℂ), p.drift, p.ctrl, p.tf, p.xTimes, p.amp⟩)
      τ u = p.bare.steps τ u := by
    rw [h.steps_eq _ hu, (h.withInit (1 : Matrix n n ℂ)).steps_eq _ hu]
  rw [hs] at e4
  obtain ⟨U, a1, a2⟩ := forward_linear e2 e4 _ le_rfl
  rw [List.getLast?_eq_getElem?, e2.1, Nat.add_sub_cancel, a2]
  rw [List.getLast?_eq_getElem?, e4.1, Nat.add_sub_cancel, a1, Matrix.mul_one] at e6
  rw [Option.some.inj e6]
  rfl

omit [Fintype n] [DecidableEq n] in
theorem mirror_shape {p : SPar n m} {τ : List ℝ} {u : Solver.Pulse} (hu : u.length = τ.length)
    (hrow : ∀ row ∈ u, row.length = p.ctrl.length) (X : Matrix n k ℂ) :
    u.reverse.length = τ.reverse.length ∧ ∀ row ∈ u.reverse, row.length = (p.mirrored X).ctrl.length :=
  ⟨by simpa using hu, fun row hr => by simpa [SPar.mirrored] using hrow row (List.mem_reverse.mp hr)⟩

/-- Both final operators. -/
theorem Computes.last_mirrored {p : SPar n m} {τ : List ℝ} (h : Computes p τ) (X : Matrix n k ℂ) (u : Solver.Pulse) (hu : u.length = τ.length)
    (hrow : ∀ row ∈ u, row.length = p.ctrl.length) :
    ∃ f f' U, (readFwd p.bare.cfg (fresh p.bare.cfg τ u)).1 = .ok f ∧
      (readFwd (p.mirrored X).bare.cfg (fresh (p.mirrored X).bare.cfg τ.reverse u.reverse)).1 = .ok f' ∧
      f.getLast? = some (U * p.init) ∧ f'.getLast? = some (Uᵀ * X) := by
  obtain ⟨f, e1, e2⟩ := h.last_evolve u hu hrow
  obtain ⟨hu', hr'⟩ := mirror_shape hu hrow X
  obtain ⟨f', e3, e4⟩ := (h.mirrored X).last_evolve u.reverse hu' hr'
  refine ⟨f, f', _, e1, e3, e2, ?_⟩
  rw [e4, totals_mirror p X τ u h.drift hu, evolve_mirror]
  rfl

/-! ## The property -/

/-- **C158** The forward propagators of the system played backwards are the transposes of the reversed propagators; the final
propagator is the transpose of the final propagator. -/
theorem c158_propagators (p : SPar n n) (hi : p.init = 1) (τ : List ℝ) (h : Computes p τ) (u : Solver.Pulse) (hu : u.length = τ.length)
    (hrow : ∀ row ∈ u, row.length = p.ctrl.length) :
    ∃ f f' r U, (readFwd p.bare.cfg (fresh p.bare.cfg τ u)).1 = .ok f ∧ (readRev p.bare.cfg (fresh p.bare.cfg τ u)).1 = .ok r ∧
      (readFwd (p.mirrored (1 : Matrix n n ℂ)).bare.cfg (fresh (p.mirrored (1 : Matrix n n ℂ)).bare.cfg τ.reverse u.reverse)).1 = .ok f' ∧
      f' = r.map (fun R => Rᵀ) ∧ f.getLast? = some U ∧ f'.getLast? = some Uᵀ := by
  obtain ⟨f, f', U, e1, e2, e3, e4⟩ := h.last_mirrored (1 : Matrix n n ℂ) u hu hrow
  have hne : u ≠ [] := by
    intro h0
    rw [h0] at hu
    exact h.steps (List.length_eq_zero_iff.mp hu.symm)
  obtain ⟨r, a1, a2, a3, a4⟩ := idAmp_ok u p.ctrl.length hne hrow
  have hamp := ampsOf_some p.bare.cfg τ u u r rfl a1 a2 (by rw [a4]; exact hu) a3
  rw [a4] at hamp
  obtain ⟨R, s', b1, b2, -⟩ := (ready_fresh p.bare τ u u hamp).rev ⟨h.ctrl, h.drift, by
    show p.method ≠ .other
    rcases h.method with h | h <;> rw [h.1] <;> simp⟩ h.stable h.steps
  refine ⟨f, f', R, U, e1, by rw [b1], e2, ?_, by rw [e3, hi, Matrix.mul_one], by rw [e4, Matrix.mul_one]⟩
  obtain ⟨hu', hr'⟩ := mirror_shape hu hrow (1 : Matrix n n ℂ)
  obtain ⟨g, c1, c2⟩ := (h.mirrored (1 : Matrix n n ℂ)).fwd u.reverse hu' hr'
  rw [e2] at c1
  cases c1
  have hs : (p.mirrored (1 : Matrix n n ℂ)).bare.steps τ.reverse u.reverse = ((p.bare.steps τ u).map fun P => Pᵀ).reverse := by
    rw [h.steps_eq _ hu, (h.mirrored (1 : Matrix n n ℂ)).steps_eq _ hu']
    have := congrArg (List.map fun x : ℝ × Matrix n n ℂ => NormedSpace.exp (((x.1 : ℝ) : ℂ) • ((-Complex.I) • x.2)))
      (totals_mirror p (1 : Matrix n n ℂ) τ u h.drift hu)
    unfold totals at this
    rw [List.map_zipWith, List.map_reverse, List.map_map, List.map_zipWith] at this
    rw [this, List.map_zipWith]
    congr 2
    funext s a
    rw [← Matrix.exp_transpose]
    simp
  rw [hs] at c2
  refine forward_unique c2 ?_
  refine ⟨by simp [b2.1], by simp [b2.2.1]; rfl, fun i hi => ?_⟩
  have hl : i < (p.bare.steps τ u).length := by simpa using hi
  obtain ⟨Q, q1, q2⟩ := b2.2.2 i hl
  refine ⟨Qᵀ, by simp [q1], ?_⟩
  rw [List.getElem?_map, q2, List.getElem_reverse]
  simp

/-- The infidelity of a transposed operation. -/
theorem entFid_transpose (cl : Closest) (cs : Option (List n)) (mcu : Bool) (hm : mcu = false ∨ cs = none)
    (T : Matrix (CompIdx cs) (CompIdx cs) ℂ) (U : Matrix n n ℂ) : entFid cl cs Tᵀ Uᵀ mcu = entFid cl cs T U mcu := by
  unfold entFid
  rw [truncTo_eq cl cs mcu hm, truncTo_eq cl cs mcu hm]
  congr 4
  rw [← Matrix.trace_transpose, Matrix.transpose_mul, Matrix.trace_mul_comm]
  rfl

/-- **C158** The infidelity with respect to the transposed operation is the same. -/
theorem c158_infidelity (p : SPar n n) (hi : p.init = 1) (τ : List ℝ) (h : Computes p τ) (cl : Closest) (cs : Option (List n)) (mcu : Bool)
    (hm : mcu = false ∨ cs = none) (T : Matrix (CompIdx cs) (CompIdx cs) ℂ) (u : Solver.Pulse) (hu : u.length = τ.length)
    (hrow : ∀ row ∈ u, row.length = p.ctrl.length) :
    ∃ c, (costOn (opCosts cl cs T mcu) p.bare.cfg (fresh p.bare.cfg τ u)).1 = .ok c ∧
      (costOn (opCosts cl cs Tᵀ mcu) (p.mirrored (1 : Matrix n n ℂ)).bare.cfg
        (fresh (p.mirrored (1 : Matrix n n ℂ)).bare.cfg τ.reverse u.reverse)).1 = .ok c := by
  obtain ⟨f, f', U, e1, e2, e3, e4⟩ := h.last_mirrored (1 : Matrix n n ℂ) u hu hrow
  rw [costOn_fwd e1, costOn_fwd e2]
  unfold opCosts
  rw [last_ok (l := f) e3, last_ok (l := f') e4, hi, Matrix.mul_one, Matrix.mul_one]
  refine ⟨_, rfl, ?_⟩
  show Except.ok _ = Except.ok _
  rw [entFid_transpose cl cs mcu hm]

/-- **C158** The leakage is the same. -/
theorem c158_leakage (p : SPar n n) (hi : p.init = 1) (τ : List ℝ) (h : Computes p τ) (l : List n) (u : Solver.Pulse)
    (hu : u.length = τ.length) (hrow : ∀ row ∈ u, row.length = p.ctrl.length) :
    ∃ c, (costOn (leakCosts l) p.bare.cfg (fresh p.bare.cfg τ u)).1 = .ok c ∧
      (costOn (leakCosts l) (p.mirrored (1 : Matrix n n ℂ)).bare.cfg
        (fresh (p.mirrored (1 : Matrix n n ℂ)).bare.cfg τ.reverse u.reverse)).1 = .ok c := by
  obtain ⟨f, f', U, e1, e2, e3, e4⟩ := h.last_mirrored (1 : Matrix n n ℂ) u hu hrow
  rw [costOn_fwd e1, costOn_fwd e2]
  unfold leakCosts
  rw [last_ok (l := f) e3, last_ok (l := f') e4, hi, Matrix.mul_one, Matrix.mul_one]
  refine ⟨_, rfl, ?_⟩
  show Except.ok _ = Except.ok _
  congr 4
  have : (((Uᵀ).submatrix l.get l.get)ᴴ * (Uᵀ).submatrix l.get l.get).trace =
      ((U.submatrix l.get l.get)ᴴ * U.submatrix l.get l.get).trace := by
    rw [← Matrix.trace_transpose, Matrix.transpose_mul]
    rw [Matrix.trace_mul_comm]
    rfl
  rw [this]

/-- **C158** State transfer: the pulse played backwards takes the conjugate of the target state to the conjugate of the initial
state exactly as well. -/
theorem c158_states (p : SPar n (Fin 1)) (τ : List ℝ) (h : Computes p τ) (φ : Matrix n (Fin 1) ℂ) (rescale : Bool) (u : Solver.Pulse)
    (hu : u.length = τ.length) (hrow : ∀ row ∈ u, row.length = p.ctrl.length) :
    ∃ c, (costOn (stateCosts (none : Option (List n)) (asBra (.ket φ)) rescale) p.bare.cfg (fresh p.bare.cfg τ u)).1 = .ok c ∧
      (costOn (stateCosts (none : Option (List n)) (asBra (.ket (p.init.map star))) rescale) (p.mirrored (φ.map star)).bare.cfg
        (fresh (p.mirrored (φ.map star)).bare.cfg τ.reverse u.reverse)).1 = .ok c := by
  obtain ⟨f, f', U, e1, e2, e3, e4⟩ := h.last_mirrored (φ.map star) u hu hrow
  rw [costOn_fwd e1, costOn_fwd e2]
  have key : ∀ (A B : Matrix n (Fin 1) ℂ) (g : List (Matrix n (Fin 1) ℂ)), g.getLast? = some B →
      stateCosts (none : Option (List n)) (asBra (.ket A)) rescale g = .ok (1 - (((Aᴴ * B) 0 0).re ^ 2 + ((Aᴴ * B) 0 0).im ^ 2)) := by
    intro A B g hg
    unfold stateCosts
    rw [last_ok (l := g) hg]
    simp only [bind, Except.bind, stateFid, and_self, dite_true]
    rfl
  rw [key _ _ f e3, key _ _ f' e4]
  have e : ((p.init.map star)ᴴ * (Uᵀ * φ.map star)) 0 0 = (φᴴ * (U * p.init)) 0 0 := by
    have : (p.init.map star)ᴴ * (Uᵀ * φ.map star) = (φᴴ * (U * p.init))ᵀ := by
      rw [Matrix.transpose_mul, Matrix.transpose_mul, ← Matrix.mul_assoc]
      congr 2
      ext i j
      simp
    rw [this]
    rfl
  exact ⟨_, rfl, by rw [e]⟩

theorem bump_reverse (u : Solver.Pulse) (t c : Nat) (x : ℝ) (ht : t < u.length) :
    (Solver.bump u t c x).reverse = Solver.bump u.reverse (u.length - 1 - t) c x := by
  unfold Solver.bump
  refine List.ext_getElem (by simp) fun i h1 h2 => ?_
  have hi : i < u.length := by simpa using h1
  rw [List.getElem_reverse, List.getElem_modify, List.getElem_modify, List.getElem_reverse]
  simp only [List.length_modify]
  by_cases h : t = u.length - 1 - i
  · rw [if_pos h, if_pos (by omega)]
  · rw [if_neg h, if_neg (by omega)]

theorem bump_shape {u : Solver.Pulse} {N : Nat} (hrow : ∀ row ∈ u, row.length = N) (t c : Nat) (x : ℝ) :
    (Solver.bump u t c x).length = u.length ∧ ∀ row ∈ Solver.bump u t c x, row.length = N := by
  refine ⟨by simp [Solver.bump], fun row hr => ?_⟩
  unfold Solver.bump at hr
  obtain ⟨i, hi, rfl⟩ := List.getElem_of_mem hr
  rw [List.getElem_modify]
  have hi' : i < u.length := by simpa using hi
  split
  · simpa using hrow _ (List.getElem_mem hi')
  · exact hrow _ (List.getElem_mem hi')

theorem bare_amps {p : SPar n m} {τ : List ℝ} (hτ : τ ≠ []) {u : Solver.Pulse} (hu : u.length = τ.length)
    (hrow : ∀ row ∈ u, row.length = p.ctrl.length) : ampsOf p.bare.cfg τ u = some u := by
  have hne : u ≠ [] := by
    intro h0
    rw [h0] at hu
    exact hτ (List.length_eq_zero_iff.mp hu.symm)
  obtain ⟨r, a1, a2, a3, a4⟩ := idAmp_ok u p.ctrl.length hne hrow
  have hamp := ampsOf_some p.bare.cfg τ u u r rfl a1 a2 (by rw [a4]; exact hu) a3
  rwa [a4] at hamp

/-- A gradient: one number per time step and control, which is the derivative of the costs by this amplitude. -/
def IsGradient (p : SPar n m) (τ : List ℝ) (cost : List (Matrix n m ℂ) → Except PyErr ℝ) (u : Solver.Pulse) (g : List (List ℝ)) : Prop :=
  Rect g τ.length p.ctrl.length ∧ ∀ t c, t < τ.length → c < p.ctrl.length →
    ∃ (G : ℝ) (f : ℝ → ℝ), Cost.entry g t c = some G ∧
      (∀ x, (costOn cost p.bare.cfg (fresh p.bare.cfg τ (Solver.bump u t c x))).1 = .ok (f x)) ∧ HasDerivAt f G 0

/-- The gradients of costs which agree for the pulse and the pulse played backwards. -/
theorem mirror_gradient {p : SPar n m} {τ : List ℝ} (X : Matrix n k ℂ) {F : List (Matrix n m ℂ) → Except PyErr ℝ}
    {F' : List (Matrix n k ℂ) → Except PyErr ℝ} {u : Solver.Pulse} (hu : u.length = τ.length)
    (hrow : ∀ row ∈ u, row.length = p.ctrl.length) {g g' : List (List ℝ)} (hg : IsGradient p τ F u g)
    (hg' : IsGradient (p.mirrored X) τ.reverse F' u.reverse g')
    (hF : ∀ v : Solver.Pulse, v.length = τ.length → (∀ row ∈ v, row.length = p.ctrl.length) →
      ∃ c, (costOn F p.bare.cfg (fresh p.bare.cfg τ v)).1 = .ok c ∧
        (costOn F' (p.mirrored X).bare.cfg (fresh (p.mirrored X).bare.cfg τ.reverse v.reverse)).1 = .ok c) : g' = g.reverse := by
  obtain ⟨g2, g3⟩ := hg
  obtain ⟨k2, k3⟩ := hg'
  have hg : g.length = τ.length := g2.1
  have hg' : g'.length = τ.length := k2.1.trans (by show τ.reverse.length = _; simp)
  refine List.ext_getElem (by simp [hg, hg']) fun i h1 h2 => ?_
  have hiN : i < τ.length := by omega
  have hcol : ∀ (j : Nat) (hj : j < g.length), g[j].length = p.ctrl.length := fun j hj => g2.2 _ (List.getElem_mem hj)
  have hcol' : ∀ (j : Nat) (hj : j < g'.length), g'[j].length = p.ctrl.length := fun j hj => by
    have e : g'[j].length = (p.ctrl.map fun H => Hᵀ).length := k2.2 _ (List.getElem_mem hj)
    rw [e, List.length_map]
  rw [List.getElem_reverse]
  have ht : g.length - 1 - i < g.length := by omega
  refine List.ext_getElem (by rw [hcol', hcol]) fun c h3 h4 => ?_
  have hcN : c < p.ctrl.length := by rw [hcol'] at h3; exact h3
  obtain ⟨G, cost, a1, a2, a3⟩ := g3 (g.length - 1 - i) c (by show _ < τ.length; omega) hcN
  obtain ⟨G', cost', b1, b2, b3⟩ := k3 i c (by show _ < τ.reverse.length; simpa using hiN) (by
      show c < (p.ctrl.map fun H => Hᵀ).length
      simpa using hcN)
  have hcost : cost' = cost := by
    funext x
    obtain ⟨v, w1, w2⟩ := hF (Solver.bump u (g.length - 1 - i) c x)
      ((bump_shape hrow _ _ _).1.trans hu) (bump_shape hrow _ _ _).2
    rw [a2 x] at w1
    rw [bump_reverse _ _ _ _ (by omega), show u.length - 1 - (g.length - 1 - i) = i by omega, b2 x] at w2
    rw [Except.ok.inj w1, Except.ok.inj w2]
  rw [hcost] at b3
  have e := a3.unique b3
  unfold Cost.entry at a1 b1
  rw [List.getElem?_eq_getElem ht, Option.bind_some, List.getElem?_eq_getElem h4] at a1
  rw [List.getElem?_eq_getElem h1, Option.bind_some, List.getElem?_eq_getElem h3] at b1
  rw [Option.some.inj a1, Option.some.inj b1, e]

theorem _root_.Verif.Sim.Exact.mirrored {p : SPar n m} {τ : List ℝ} (h : Exact p τ) (X : Matrix n k ℂ) :
    Exact (p.mirrored X) τ.reverse := by
  have hc : Computes p τ := ⟨h.ctrl, h.drift, h.steps, h.stable, Or.inl ⟨h.method, h.expm⟩⟩
  have hc' := hc.mirrored X
  exact ⟨hc'.ctrl, hc'.drift, hc'.steps, h.method, h.approx, h.expm, h.frechet, hc'.stable⟩

/-- **C158** The gradient of the infidelity of the pulse played backwards is the gradient in opposite order. -/
theorem c158_gradient (p : SPar n n) (hi : p.init = 1) (τ : List ℝ) (h : Exact p τ) (cl : Closest) (cs : Option (List n)) (hcs : cs ≠ some [])
    (mcu : Bool) (hm : mcu = false ∨ cs = none) (T : Matrix (CompIdx cs) (CompIdx cs) ℂ) (u : Solver.Pulse) (hu : u.length = τ.length)
    (hrow : ∀ row ∈ u, row.length = p.ctrl.length) :
    ∃ g, (gradOn (fun tr => opGrad cl cs T mcu tr.fwd tr.dP tr.rev) p.bare.cfg (fresh p.bare.cfg τ u)).1 = .ok g ∧
      (gradOn (fun tr => opGrad cl cs Tᵀ mcu tr.fwd tr.dP tr.rev) (p.mirrored (1 : Matrix n n ℂ)).bare.cfg
        (fresh (p.mirrored (1 : Matrix n n ℂ)).bare.cfg τ.reverse u.reverse)).1 = .ok g.reverse := by
  have key : ∀ (q : SPar n n) (σ : List ℝ), Exact q σ → ∀ (S : Matrix (CompIdx cs) (CompIdx cs) ℂ) (v : Solver.Pulse), v.length = σ.length →
      (∀ row ∈ v, row.length = q.ctrl.length) →
      ∃ g, (gradOn (fun tr => opGrad cl cs S mcu tr.fwd tr.dP tr.rev) q.bare.cfg (fresh q.bare.cfg σ v)).1 = .ok g ∧
        IsGradient q σ (opCosts cl cs S mcu) v g := by
    intro q σ hq S v hv hvr
    obtain ⟨g, g1, g2, g3⟩ := c44_schroedinger q.bare σ hq.valid hq.stable hq.method hq.approx hq.expm hq.frechet hq.steps cl cs hcs mcu hm S v v
      (bare_amps hq.steps hv hvr)
    exact ⟨g, g1, g2, fun t c ht hc => g3 t c ht hc _ fun x => bare_amps hq.steps ((bump_shape hvr _ _ _).1.trans hv) (bump_shape hvr _ _ _).2⟩
  obtain ⟨hu', hr'⟩ := mirror_shape hu hrow (1 : Matrix n n ℂ)
  obtain ⟨g, g1, g2⟩ := key p τ h T u hu hrow
  obtain ⟨g', k1, k2⟩ := key _ _ (h.mirrored (1 : Matrix n n ℂ)) Tᵀ u.reverse hu' hr'
  refine ⟨g, g1, k1.trans (congrArg Except.ok ?_)⟩
  exact mirror_gradient _ hu hrow g2 k2 fun v hv hvr => c158_infidelity p hi τ h.computes cl cs mcu hm T v hv hvr

/-- **C158** The gradient of the infidelity of the state transfer, likewise. -/
theorem c158_state_gradient (p : SPar n (Fin 1)) (τ : List ℝ) (h : Exact p τ) (φ : Matrix n (Fin 1) ℂ) (rescale : Bool) (u : Solver.Pulse)
    (hu : u.length = τ.length) (hrow : ∀ row ∈ u, row.length = p.ctrl.length) :
    ∃ g, (gradOn (fun tr => stateGrad (none : Option (List n)) (asBra (.ket φ)) rescale tr.fwd tr.dP tr.rev) p.bare.cfg
        (fresh p.bare.cfg τ u)).1 = .ok g ∧
      (gradOn (fun tr => stateGrad (none : Option (List n)) (asBra (.ket (p.init.map star))) rescale tr.fwd tr.dP tr.rev)
        (p.mirrored (φ.map star)).bare.cfg (fresh (p.mirrored (φ.map star)).bare.cfg τ.reverse u.reverse)).1 = .ok g.reverse := by
  have key : ∀ (q : SPar n (Fin 1)) (σ : List ℝ), Exact q σ → ∀ (S : Matrix (Fin 1) (CompIdx (none : Option (List n))) ℂ) (v : Solver.Pulse),
      v.length = σ.length → (∀ row ∈ v, row.length = q.ctrl.length) →
      ∃ g, (gradOn (fun tr => stateGrad none S rescale tr.fwd tr.dP tr.rev) q.bare.cfg (fresh q.bare.cfg σ v)).1 = .ok g ∧
        IsGradient q σ (stateCosts none S rescale) v g := by
    intro q σ hq S v hv hvr
    obtain ⟨g, g1, g2, g3⟩ := c51_schroedinger q.bare σ hq.valid hq.stable hq.method hq.approx hq.expm hq.frechet hq.steps none (by simp) S
      rescale v v (bare_amps hq.steps hv hvr)
    exact ⟨g, g1, g2, fun t c ht hc => g3 t c ht hc _ fun x => bare_amps hq.steps ((bump_shape hvr _ _ _).1.trans hv) (bump_shape hvr _ _ _).2⟩
  obtain ⟨hu', hr'⟩ := mirror_shape hu hrow (φ.map star)
  obtain ⟨g, g1, g2⟩ := key p τ h (asBra (.ket φ)) u hu hrow
  obtain ⟨g', k1, k2⟩ := key _ _ (h.mirrored (φ.map star)) (asBra (.ket (p.init.map star))) u.reverse hu' hr'
  refine ⟨g, g1, k1.trans (congrArg Except.ok ?_)⟩
  exact mirror_gradient _ hu hrow g2 k2 fun v hv hvr =>
    c158_states p τ ⟨h.ctrl, h.drift, h.steps, h.stable, Or.inl ⟨h.method, h.expm⟩⟩ φ rescale v hv hvr

omit [Fintype n] [DecidableEq n] in
theorem leakOf_transpose (l : List n) (U : Matrix n n ℂ) : leakOf l Uᵀ = leakOf l U := by
  unfold leakOf
  have : (((Uᵀ).submatrix l.get l.get)ᴴ * (Uᵀ).submatrix l.get l.get).trace =
      ((U.submatrix l.get l.get)ᴴ * U.submatrix l.get l.get).trace := by
    rw [← Matrix.trace_transpose, Matrix.transpose_mul]
    rw [Matrix.trace_mul_comm]
    rfl
  rw [this]

/-- **C158** The gradient of the leakage, likewise. -/
theorem c158_leakage_gradient (p : SPar n n) (hi : p.init = 1) (τ : List ℝ) (h : Exact p τ) (l : List n) (u : Solver.Pulse)
    (hu : u.length = τ.length) (hrow : ∀ row ∈ u, row.length = p.ctrl.length) :
    ∃ g, (gradOn (fun tr => leakGrad l tr.fwd tr.dP tr.rev) p.bare.cfg (fresh p.bare.cfg τ u)).1 = .ok g ∧
      (gradOn (fun tr => leakGrad l tr.fwd tr.dP tr.rev) (p.mirrored (1 : Matrix n n ℂ)).bare.cfg
        (fresh (p.mirrored (1 : Matrix n n ℂ)).bare.cfg τ.reverse u.reverse)).1 = .ok g.reverse := by
  have key : ∀ (q : SPar n n) (σ : List ℝ), Exact q σ → ∀ (v : Solver.Pulse), v.length = σ.length →
      (∀ row ∈ v, row.length = q.ctrl.length) →
      ∃ g, (gradOn (fun tr => leakGrad l tr.fwd tr.dP tr.rev) q.bare.cfg (fresh q.bare.cfg σ v)).1 = .ok g ∧
        IsGradient q σ (leakRaw l) v g := by
    intro q σ hq v hv hvr
    obtain ⟨g, g1, g2, g3⟩ := amplitude_gradient q.bare σ hq.valid hq.stable hq.method hq.approx hq.expm hq.frechet hq.steps (leakRaw l)
      (fun tr => leakGrad l tr.fwd tr.dP tr.rev) v _ (ready_fresh q.bare σ v v (bare_amps hq.steps hv hvr))
      fun tr htr => leakRaw_gradient l q.bare.init _ _ (List.length_pos_iff.mpr hq.valid.1) tr htr
    refine ⟨g, g1, g2, fun t c ht hc => ?_⟩
    obtain ⟨G, cost, k1, k2, -, k4⟩ := g3 t c ht hc (fun x => fresh q.bare.cfg σ (Solver.bump v t c x)) fun x =>
      ready_fresh q.bare σ _ _ (bare_amps hq.steps ((bump_shape hvr _ _ _).1.trans hv) (bump_shape hvr _ _ _).2)
    exact ⟨G, cost, k1, k2, k4⟩
  obtain ⟨hu', hr'⟩ := mirror_shape hu hrow (1 : Matrix n n ℂ)
  obtain ⟨g, g1, g2⟩ := key p τ h u hu hrow
  obtain ⟨g', k1, k2⟩ := key _ _ (h.mirrored (1 : Matrix n n ℂ)) u.reverse hu' hr'
  refine ⟨g, g1, k1.trans (congrArg Except.ok ?_)⟩
  refine mirror_gradient _ hu hrow g2 k2 fun v hv hvr => ?_
  obtain ⟨f, f', U, e1, e2, e3, e4⟩ := h.computes.last_mirrored (1 : Matrix n n ℂ) v hv hvr
  rw [costOn_fwd e1, costOn_fwd e2]
  unfold leakRaw
  rw [last_ok (l := f) e3, last_ok (l := f') e4, hi, Matrix.mul_one, Matrix.mul_one]
  exact ⟨_, rfl, congrArg Except.ok (leakOf_transpose l U)⟩

omit [Fintype n] [DecidableEq n] in
/-- Symmetric Hamiltonians. -/
theorem mirrored_symmetric {p : SPar n n} (hd : ∀ H ∈ p.drift, Hᵀ = H) (hc : ∀ H ∈ p.ctrl, Hᵀ = H) (X : Matrix n k ℂ) :
    p.mirrored X = ⟨p.L, p.method, p.skew, p.calcDeriv, p.approx, X, p.drift.reverse, p.ctrl, p.tf, p.xTimes, p.amp⟩ := by
  unfold SPar.mirrored
  have h1 : (p.drift.map fun H => Hᵀ) = p.drift := by
    rw [List.map_congr_left (g := id) hd, List.map_id]
  have h2 : (p.ctrl.map fun H => Hᵀ) = p.ctrl := by
    rw [List.map_congr_left (g := id) hc, List.map_id]
  rw [h1, h2]

/-- **C158** If all Hamiltonians are symmetric matrices (for Hermitian ones: real), the same system driven with the pulse played
backwards performs the transposed gate: the infidelity for a symmetric target and its gradient, in opposite order, are those of
the pulse. -/
theorem c158_symmetric (p : SPar n n) (hi : p.init = 1) (hd : ∀ H ∈ p.drift, Hᵀ = H) (hs : ∀ H ∈ p.ctrl, Hᵀ = H) (τ : List ℝ) (h : Exact p τ)
    (cl : Closest) (cs : Option (List n)) (hcs : cs ≠ some []) (mcu : Bool) (hm : mcu = false ∨ cs = none)
    (T : Matrix (CompIdx cs) (CompIdx cs) ℂ) (hT : Tᵀ = T) (u : Solver.Pulse) (hu : u.length = τ.length)
    (hrow : ∀ row ∈ u, row.length = p.ctrl.length) :
    let p' : SPar n n := { p with drift := p.drift.reverse }
    ∃ c g, (costOn (opCosts cl cs T mcu) p.bare.cfg (fresh p.bare.cfg τ u)).1 = .ok c ∧
      (costOn (opCosts cl cs T mcu) p'.bare.cfg (fresh p'.bare.cfg τ.reverse u.reverse)).1 = .ok c ∧
      (gradOn (fun tr => opGrad cl cs T mcu tr.fwd tr.dP tr.rev) p.bare.cfg (fresh p.bare.cfg τ u)).1 = .ok g ∧
      (gradOn (fun tr => opGrad cl cs T mcu tr.fwd tr.dP tr.rev) p'.bare.cfg (fresh p'.bare.cfg τ.reverse u.reverse)).1 = .ok g.reverse := by
  intro p'
  have e : p.mirrored (1 : Matrix n n ℂ) = p' := by
    rw [mirrored_symmetric hd hs, ← hi]
  obtain ⟨c, c1, c2⟩ := c158_infidelity p hi τ h.computes cl cs mcu hm T u hu hrow
  obtain ⟨g, g1, g2⟩ := c158_gradient p hi τ h cl cs hcs mcu hm T u hu hrow
  rw [hT, e] at c2 g2
  exact ⟨c, g, c1, c2, g1, g2⟩

/-- **C158** A pulse that reads the same in both directions performs a symmetric gate if all Hamiltonians are symmetric. -/
theorem c158_palindrome (p : SPar n n) (hi : p.init = 1) (hd : ∀ H ∈ p.drift, Hᵀ = H) (hs : ∀ H ∈ p.ctrl, Hᵀ = H) (τ : List ℝ)
    (h : Computes p τ) (u : Solver.Pulse) (hu : u.length = τ.length) (hrow : ∀ row ∈ u, row.length = p.ctrl.length)
    (hτr : τ.reverse = τ) (hdr : p.drift.reverse = p.drift) (hur : u.reverse = u) :
    ∃ f U, (readFwd p.bare.cfg (fresh p.bare.cfg τ u)).1 = .ok f ∧ f.getLast? = some U ∧ Uᵀ = U := by
  obtain ⟨f, f', r, U, e1, -, e2, -, e3, e4⟩ := c158_propagators p hi τ h u hu hrow
  rw [mirrored_symmetric hd hs, ← hi, hτr, hdr, hur] at e2
  have : (Except.ok f' : Except PyErr _) = .ok f := e2.symm.trans e1
  cases this
  refine ⟨f, U, e1, e3, ?_⟩
  rw [e3] at e4
  exact (Option.some.inj e4).symm

/-! ### Cases of C158 -/

namespace Ex158

/-- A qubit with different drifts in three time steps and two controls, one of them an antisymmetric matrix. -/
noncomputable def par (L : Lapack (Fin 2)) (Y : Matrix (Fin 2) (Fin 2) ℂ) : SPar (Fin 2) (Fin 2) :=
  ⟨L, .frechet, true, true, .none, 1, [!![1, 0; 0, -1], 0, !![1, 0; 0, 2]], [!![0, 1; 1, 0], Y], idTf, id, idAmp⟩

theorem exact {L : Lapack (Fin 2)} (hE : L.ExpmOk) (hF : L.FrechetOk) (Y : Matrix (Fin 2) (Fin 2) ℂ) (a b c : ℝ) : Exact (par L Y) [a, b, c] :=
  ⟨by simp [par], rfl, by simp, rfl, rfl, hE, hF, Or.inl ⟨rfl, rfl⟩⟩

/-- The propagators, infidelity of a phase gate, its gradient, and the leakage out of the first level. -/
example (x y z : ℝ) : ∃ (L : Lapack (Fin 2)) (f f' r : List (Matrix (Fin 2) (Fin 2) ℂ)) (c d : ℝ) (g : List (List ℝ)),
    let p := par L !![0, -Complex.I; Complex.I, 0]
    let p' : SPar (Fin 2) (Fin 2) := { p with
      drift := [!![1, 0; 0, 2]ᵀ, 0ᵀ, !![1, 0; 0, -1]ᵀ], ctrl := [!![0, 1; 1, 0]ᵀ, !![0, -Complex.I; Complex.I, 0]ᵀ] }
    let s := fresh p.bare.cfg [1, 2, 3] [[x, y], [z, 1], [2, x]]
    let s' := fresh p'.bare.cfg [3, 2, 1] [[2, x], [z, 1], [x, y]]
    (readFwd p.bare.cfg s).1 = .ok f ∧ (readRev p.bare.cfg s).1 = .ok r ∧ (readFwd p'.bare.cfg s').1 = .ok f' ∧ f' = r.map (fun R => Rᵀ) ∧
    (costOn (opCosts (fun _ A => A) none !![0, 1; Complex.I, 0] false) p.bare.cfg s).1 = .ok c ∧
    (costOn (opCosts (fun _ A => A) none !![0, 1; Complex.I, 0]ᵀ false) p'.bare.cfg s').1 = .ok c ∧
    (gradOn (fun tr => opGrad (fun _ A => A) none !![0, 1; Complex.I, 0] false tr.fwd tr.dP tr.rev) p.bare.cfg s).1 = .ok g ∧
    (gradOn (fun tr => opGrad (fun _ A => A) none !![0, 1; Complex.I, 0]ᵀ false tr.fwd tr.dP tr.rev) p'.bare.cfg s').1 = .ok g.reverse ∧
    (costOn (leakCosts [0]) p.bare.cfg s).1 = .ok d ∧ (costOn (leakCosts [0]) p'.bare.cfg s').1 = .ok d := by
  obtain ⟨L, -, -, hE, hF⟩ := lapack_exists (Fin 2)
  have h := exact hE hF !![0, -Complex.I; Complex.I, 0] 1 2 3
  have hr : ∀ row ∈ ([[x, y], [z, 1], [2, x]] : Solver.Pulse), row.length = (par L !![0, -Complex.I; Complex.I, 0]).ctrl.length := by simp [par]
  obtain ⟨f, f', r, U, e1, e2, e3, e4, -⟩ := c158_propagators (par L !![0, -Complex.I; Complex.I, 0]) rfl [1, 2, 3] h.computes _ rfl hr
  obtain ⟨c, c1, c2⟩ := c158_infidelity (par L !![0, -Complex.I; Complex.I, 0]) rfl [1, 2, 3] h.computes (fun _ A => A) none false (Or.inl rfl)
    !![0, 1; Complex.I, 0] _ rfl hr
  obtain ⟨g, g1, g2⟩ := c158_gradient (par L !![0, -Complex.I; Complex.I, 0]) rfl [1, 2, 3] h (fun _ A => A) none (by simp) false (Or.inl rfl)
    !![0, 1; Complex.I, 0] _ rfl hr
  obtain ⟨d, d1, d2⟩ := c158_leakage (par L !![0, -Complex.I; Complex.I, 0]) rfl [1, 2, 3] h.computes [0] _ rfl hr
  exact ⟨L, f, f', r, c, d, g, e1, e2, e3, e4, c1, c2, g1, g2, d1, d2⟩

/-- From the first state to a superposition and back. -/
example (x y z : ℝ) : ∃ (L : Lapack (Fin 2)) (c : ℝ),
    let p : SPar (Fin 2) (Fin 1) := { Ex93.ket L with drift := [!![1, 0; 0, -1], 0, !![1, 0; 0, 2]] }
    (costOn (stateCosts none (asBra (.ket !![1; Complex.I])) false) p.bare.cfg (fresh p.bare.cfg [1, 2, 3] [[x, y], [z, 1], [2, x]])).1 = .ok c ∧
    (costOn (stateCosts none (asBra (.ket (!![1; 0].map star))) false) (p.mirrored (!![1; Complex.I].map star)).bare.cfg
      (fresh (p.mirrored (!![1; Complex.I].map star)).bare.cfg [3, 2, 1] [[2, x], [z, 1], [x, y]])).1 = .ok c := by
  obtain ⟨L, -, -, hE, hF⟩ := lapack_exists (Fin 2)
  obtain ⟨c, c1, c2⟩ := c158_states { Ex93.ket L with drift := [!![1, 0; 0, -1], 0, !![1, 0; 0, 2]] } [1, 2, 3]
    ⟨by simp [Ex93.ket], rfl, by simp, Or.inl ⟨rfl, rfl⟩, Or.inl ⟨rfl, hE⟩⟩ !![1; Complex.I] false [[x, y], [z, 1], [2, x]] rfl (by simp [Ex93.ket])
  exact ⟨L, c, c1, c2⟩

/-- The gradients of the state infidelity and of the leakage. -/
example (x y z : ℝ) : ∃ (L : Lapack (Fin 2)) (g d : List (List ℝ)),
    let p : SPar (Fin 2) (Fin 1) := { Ex93.ket L with drift := [!![1, 0; 0, -1], 0, !![1, 0; 0, 2]] }
    let q := par L !![0, -Complex.I; Complex.I, 0]
    (gradOn (fun tr => stateGrad none (asBra (.ket !![1; Complex.I])) false tr.fwd tr.dP tr.rev) p.bare.cfg
      (fresh p.bare.cfg [1, 2, 3] [[x, y], [z, 1], [2, x]])).1 = .ok g ∧
    (gradOn (fun tr => stateGrad none (asBra (.ket (!![1; 0].map star))) false tr.fwd tr.dP tr.rev)
      (p.mirrored (!![1; Complex.I].map star)).bare.cfg
      (fresh (p.mirrored (!![1; Complex.I].map star)).bare.cfg [3, 2, 1] [[2, x], [z, 1], [x, y]])).1 = .ok g.reverse ∧
    (gradOn (fun tr => leakGrad [0] tr.fwd tr.dP tr.rev) q.bare.cfg (fresh q.bare.cfg [1, 2, 3] [[x, y], [z, 1], [2, x]])).1 = .ok d ∧
    (gradOn (fun tr => leakGrad [0] tr.fwd tr.dP tr.rev) (q.mirrored (1 : Matrix (Fin 2) (Fin 2) ℂ)).bare.cfg
      (fresh (q.mirrored (1 : Matrix (Fin 2) (Fin 2) ℂ)).bare.cfg [3, 2, 1] [[2, x], [z, 1], [x, y]])).1 = .ok d.reverse := by
  obtain ⟨L, -, -, hE, hF⟩ := lapack_exists (Fin 2)
  obtain ⟨g, g1, g2⟩ := c158_state_gradient { Ex93.ket L with drift := [!![1, 0; 0, -1], 0, !![1, 0; 0, 2]] } [1, 2, 3]
    ⟨by simp [Ex93.ket], rfl, by simp, rfl, rfl, hE, hF, Or.inl ⟨rfl, rfl⟩⟩ !![1; Complex.I] false [[x, y], [z, 1], [2, x]] rfl
    (by simp [Ex93.ket])
  obtain ⟨d, d1, d2⟩ := c158_leakage_gradient (par L !![0, -Complex.I; Complex.I, 0]) rfl [1, 2, 3] (exact hE hF _ 1 2 3) [0]
    [[x, y], [z, 1], [2, x]] rfl (by simp [par])
  exact ⟨L, g, d, g1, g2, d1, d2⟩

theorem symmetric (L : Lapack (Fin 2)) :
    (∀ H ∈ (par L !![0, 0; 0, 1]).drift, Hᵀ = H) ∧ ∀ H ∈ (par L !![0, 0; 0, 1]).ctrl, Hᵀ = H := by
  constructor <;> intro H hH <;> simp [par] at hH
  · rcases hH with rfl | rfl | rfl <;> ext i j <;> fin_cases i <;> fin_cases j <;> simp
  · rcases hH with rfl | rfl <;> ext i j <;> fin_cases i <;> fin_cases j <;> simp

/-- Real Hamiltonians and a controlled phase. -/
example (x y z : ℝ) : ∃ (L : Lapack (Fin 2)) (c : ℝ) (g : List (List ℝ)),
    let p := par L !![0, 0; 0, 1]
    let p' : SPar (Fin 2) (Fin 2) := { p with drift := [!![1, 0; 0, 2], 0, !![1, 0; 0, -1]] }
    (costOn (opCosts (fun _ A => A) none !![1, 0; 0, Complex.I] false) p.bare.cfg (fresh p.bare.cfg [1, 2, 3] [[x, y], [z, 1], [2, x]])).1 = .ok c ∧
    (costOn (opCosts (fun _ A => A) none !![1, 0; 0, Complex.I] false) p'.bare.cfg (fresh p'.bare.cfg [3, 2, 1] [[2, x], [z, 1], [x, y]])).1 =
      .ok c ∧
    (gradOn (fun tr => opGrad (fun _ A => A) none !![1, 0; 0, Complex.I] false tr.fwd tr.dP tr.rev) p.bare.cfg
      (fresh p.bare.cfg [1, 2, 3] [[x, y], [z, 1], [2, x]])).1 = .ok g ∧
    (gradOn (fun tr => opGrad (fun _ A => A) none !![1, 0; 0, Complex.I] false tr.fwd tr.dP tr.rev) p'.bare.cfg
      (fresh p'.bare.cfg [3, 2, 1] [[2, x], [z, 1], [x, y]])).1 = .ok g.reverse := by
  obtain ⟨L, -, -, hE, hF⟩ := lapack_exists (Fin 2)
  obtain ⟨c, g, c1, c2, g1, g2⟩ := c158_symmetric (par L !![0, 0; 0, 1]) rfl (symmetric L).1 (symmetric L).2 [1, 2, 3] (exact hE hF _ 1 2 3)
    (fun _ A => A) none (by simp) false (Or.inl rfl) !![1, 0; 0, Complex.I]
    (by ext i j; rcases (i : Fin 2) with ⟨i, hi⟩; rcases (j : Fin 2) with ⟨j, hj⟩; interval_cases i <;> interval_cases j <;> rfl)
    [[x, y], [z, 1], [2, x]] rfl (by simp [par])
  exact ⟨L, c, g, c1, c2, g1, g2⟩

/-- A pulse that goes up and down. -/
example (x y z : ℝ) : ∃ (L : Lapack (Fin 2)) (f : List (Matrix (Fin 2) (Fin 2) ℂ)) (U : Matrix (Fin 2) (Fin 2) ℂ),
    let p : SPar (Fin 2) (Fin 2) := { par L !![0, 0; 0, 1] with drift := [!![1, 0; 0, 2], 0, !![1, 0; 0, 2]] }
    (readFwd p.bare.cfg (fresh p.bare.cfg [1, 2, 1] [[x, y], [z, 1], [x, y]])).1 = .ok f ∧ f.getLast? = some U ∧ Uᵀ = U := by
  obtain ⟨L, -, -, hE, hF⟩ := lapack_exists (Fin 2)
  obtain ⟨f, U, e1, e2, e3⟩ := c158_palindrome { par L !![0, 0; 0, 1] with drift := [!![1, 0; 0, 2], 0, !![1, 0; 0, 2]] } rfl
    (fun H hH => (symmetric L).1 H (by simp [par] at hH ⊢; tauto)) (symmetric L).2 [1, 2, 1]
    ⟨by simp [par], rfl, by simp, Or.inl ⟨rfl, rfl⟩, Or.inl ⟨rfl, hE⟩⟩ [[x, y], [z, 1], [x, y]] rfl (by simp [par]) rfl rfl rfl
  exact ⟨L, f, U, e1, e2, e3⟩

end Ex158
end Verif.Sim
