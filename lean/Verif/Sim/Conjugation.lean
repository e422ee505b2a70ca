import Verif.Sim.Mirror

/-!
# C174: conjugated systems and inverse pulses

A solver with the Hamiltonians `-H̄`, the complex conjugates with opposite sign, and the conjugated initial operator; and for
Hermitian Hamiltonians the pulse with the opposite sign in opposite order, which performs the inverse operation.
`SchroedingerSolver` (solver_algorithms.py:633-795), `OperationInfidelity` (cost_functions.py:1171-1316), `StateInfidelity`
(cost_functions.py:960-1038) and `LeakageError` (cost_functions.py:1611-1691).
-/

namespace Verif.Sim
open Verif Verif.Transfer Verif.Operator Verif.Solver Verif.Cost Matrix

variable {n m k : Type} [Fintype n] [DecidableEq n]

/-! ## Specification -/

/-- The system with the Hamiltonians `-H̄` and the conjugated initial operator. -/
def _root_.Verif.Solver.SPar.conjugated (p : SPar n m) : SPar n m :=
  ⟨p.L, p.method, p.skew, p.calcDeriv, p.approx, p.init.map star, p.drift.map fun H => -H.map star, p.ctrl.map fun H => -H.map star,
    p.tf, p.xTimes, p.amp⟩

/-- The system with the Hamiltonians `-H`, the drift of the last time step first. -/
def _root_.Verif.Solver.SPar.inverted (p : SPar n m) (init : Matrix n k ℂ) : SPar n k :=
  ⟨p.L, p.method, p.skew, p.calcDeriv, p.approx, init, (p.drift.map fun H => -H).reverse, p.ctrl.map fun H => -H, p.tf, p.xTimes, p.amp⟩

/-! ## Lemmas -/

omit [DecidableEq n] in
theorem conj_mul (A : Matrix n n ℂ) (B : Matrix n m ℂ) : (A * B).map star = A.map star * B.map star := by
  ext i j
  simp [Matrix.mul_apply]

omit [Fintype n] [DecidableEq n] in
theorem conj_hermitian {H : Matrix n n ℂ} (h : H.IsHermitian) : (-H.map star).IsHermitian := by
  refine Matrix.IsHermitian.neg ?_
  ext i j
  simpa using congrArg star (h.apply i j)

theorem exp_conj (x : ℝ) (H : Matrix n n ℂ) :
    NormedSpace.exp (((x : ℝ) : ℂ) • ((-Complex.I) • (-H.map star))) = (NormedSpace.exp (((x : ℝ) : ℂ) • ((-Complex.I) • H))).map star := by
  have e : ((x : ℝ) : ℂ) • ((-Complex.I) • (-H.map star)) = ((((x : ℝ) : ℂ) • ((-Complex.I) • H))ᴴ)ᵀ := by
    ext i j
    simp
  rw [e, Matrix.exp_transpose, Matrix.exp_conjTranspose]
  rfl

omit [Fintype n] [DecidableEq n] in
theorem hamiltonian_conj (H₀ : Matrix n n ℂ) (cs : List (Matrix n n ℂ)) (row : List ℝ) :
    hamiltonian (-H₀.map star) (cs.map fun H => -H.map star) row = -(hamiltonian H₀ cs row).map star := by
  have key : (List.zipWith (fun (u : ℝ) (H : Matrix n n ℂ) => ((u : ℝ) : ℂ) • H) row (cs.map fun H => -H.map star)).sum =
      -((List.zipWith (fun (u : ℝ) (H : Matrix n n ℂ) => ((u : ℝ) : ℂ) • H) row cs).sum).map star := by
    induction row generalizing cs with
    | nil =>
      ext i j
      simp
    | cons x row ih =>
      cases cs with
      | nil =>
        ext i j
        simp
      | cons H cs =>
        rw [List.map_cons, List.zipWith_cons_cons, List.sum_cons, ih, List.zipWith_cons_cons, List.sum_cons]
        ext i j
        simp
        ring
  unfold hamiltonian
  rw [key]
  ext i j
  simp
  ring

theorem Computes.conjugated {p : SPar n m} {τ : List ℝ} (h : Computes p τ) : Computes p.conjugated τ := by
  have h1 : Computes { p with ctrl := p.ctrl.map fun H => -H.map star } τ := by
    refine h.withCtrl _ (by simpa using h.ctrl) fun hm H hH => ?_
    rcases h.method with g | g
    · rw [g.1] at hm
      cases hm
    · obtain ⟨K, hK, rfl⟩ := List.mem_map.mp hH
      exact conj_hermitian (g.2.2.2.2 K hK)
  refine ⟨h1.ctrl, by simp [SPar.conjugated, h.drift], h.steps, h1.stable, ?_⟩
  rcases h1.method with g | g
  · exact Or.inl g
  · refine Or.inr ⟨g.1, g.2.1, g.2.2.1, fun H hH => ?_, g.2.2.2.2⟩
    obtain ⟨K, hK, rfl⟩ := List.mem_map.mp hH
    exact conj_hermitian (g.2.2.2.1 K hK)

theorem _root_.Verif.Sim.Exact.conjugated {p : SPar n m} {τ : List ℝ} (h : Exact p τ) : Exact p.conjugated τ := by
  have hc : Computes p τ := ⟨h.ctrl, h.drift, h.steps, h.stable, Or.inl ⟨h.method, h.expm⟩⟩
  have hc' := hc.conjugated
  exact ⟨hc'.ctrl, hc'.drift, hc'.steps, h.method, h.approx, h.expm, h.frechet, hc'.stable⟩

theorem Computes.steps_conj {p : SPar n m} {τ : List ℝ} (h : Computes p τ) (u : Solver.Pulse) (hu : u.length = τ.length) :
    p.conjugated.bare.steps τ u = (p.bare.steps τ u).map fun P => P.map star := by
  rw [h.steps_eq _ hu, h.conjugated.steps_eq _ hu, List.map_zipWith]
  have h1 : p.conjugated.drift.zip u = (p.drift.zip u).map fun a => (-a.1.map star, a.2) := by
    show List.zip (p.drift.map fun H => -H.map star) u = _
    rw [List.zip_eq_zipWith, List.zip_eq_zipWith, List.map_zipWith, List.zipWith_map_left]
  rw [h1, List.zipWith_map_right]
  congr 1
  funext s a
  rw [← exp_conj, ← hamiltonian_conj]
  rfl

/-! ## The property -/

/-- **C174** The forward propagators of the conjugated system are the complex conjugates. -/
theorem c174_propagators (p : SPar n m) (τ : List ℝ) (h : Computes p τ) (u : Solver.Pulse) (hu : u.length = τ.length)
    (hrow : ∀ row ∈ u, row.length = p.ctrl.length) :
    ∃ f, (readFwd p.bare.cfg (fresh p.bare.cfg τ u)).1 = .ok f ∧ f.length = τ.length + 1 ∧
      (readFwd p.conjugated.bare.cfg (fresh p.conjugated.bare.cfg τ u)).1 = .ok (f.map fun F => F.map star) := by
  obtain ⟨f, e1, e2⟩ := h.fwd u hu hrow
  obtain ⟨f', e3, e4⟩ := h.conjugated.fwd u hu (by simpa [SPar.conjugated] using hrow)
  refine ⟨f, e1, by rw [e2.1, steps_length]; rfl, e3.trans (congrArg Except.ok ?_)⟩
  rw [h.steps_conj u hu] at e4
  refine forward_unique e4 ⟨by simp [e2.1], by simp [e2.2.1]; rfl, fun i hi => ?_⟩
  obtain ⟨Q, q1, q2⟩ := e2.2.2 i (by simpa using hi)
  refine ⟨Q.map star, by simp [q1], ?_⟩
  rw [List.getElem?_map, q2, List.getElem_map, ← conj_mul]
  rfl

/-- Both final operators. -/
theorem Computes.last_conj {p : SPar n m} {τ : List ℝ} (h : Computes p τ) (u : Solver.Pulse) (hu : u.length = τ.length)
    (hrow : ∀ row ∈ u, row.length = p.ctrl.length) :
    ∃ f f' U, (readFwd p.bare.cfg (fresh p.bare.cfg τ u)).1 = .ok f ∧
      (readFwd p.conjugated.bare.cfg (fresh p.conjugated.bare.cfg τ u)).1 = .ok f' ∧
      f.getLast? = some U ∧ f'.getLast? = some (U.map star) := by
  obtain ⟨f, e1, e2, e3⟩ := c174_propagators p τ h u hu hrow
  have hne : f ≠ [] := by
    intro h0
    rw [h0] at e2
    simp at e2
  exact ⟨f, _, _, e1, e3, List.getLast?_eq_getLast_of_ne_nil hne, by rw [List.getLast?_map, List.getLast?_eq_getLast_of_ne_nil hne]; rfl⟩

/-- The fidelity of a conjugated operation. -/
theorem entFid_conj (cl : Closest) (cs : Option (List n)) (mcu : Bool) (hm : mcu = false ∨ cs = none)
    (T : Matrix (CompIdx cs) (CompIdx cs) ℂ) (U : Matrix n n ℂ) : entFid cl cs (T.map star) (U.map star) mcu = entFid cl cs T U mcu := by
  unfold entFid
  rw [truncTo_eq cl cs mcu hm, truncTo_eq cl cs mcu hm]
  have : ((T.map star)ᴴ * (U.map star).submatrix (sel cs) (sel cs)).trace = star ((Tᴴ * U.submatrix (sel cs) (sel cs)).trace) := by
    simp [Matrix.trace, Matrix.mul_apply]
  rw [this, norm_star]

/-- **C174** The infidelity with respect to the conjugated operation is the same. -/
theorem c174_infidelity (p : SPar n n) (τ : List ℝ) (h : Computes p τ) (cl : Closest) (cs : Option (List n)) (mcu : Bool)
    (hm : mcu = false ∨ cs = none) (T : Matrix (CompIdx cs) (CompIdx cs) ℂ) (u : Solver.Pulse) (hu : u.length = τ.length)
    (hrow : ∀ row ∈ u, row.length = p.ctrl.length) :
    ∃ c, (costOn (opCosts cl cs T mcu) p.bare.cfg (fresh p.bare.cfg τ u)).1 = .ok c ∧
      (costOn (opCosts cl cs (T.map star) mcu) p.conjugated.bare.cfg (fresh p.conjugated.bare.cfg τ u)).1 = .ok c := by
  obtain ⟨f, f', U, e1, e2, e3, e4⟩ := h.last_conj u hu hrow
  rw [costOn_fwd e1, costOn_fwd e2]
  unfold opCosts
  rw [last_ok (l := f) e3, last_ok (l := f') e4]
  refine ⟨_, rfl, ?_⟩
  show Except.ok _ = Except.ok _
  rw [entFid_conj cl cs mcu hm]

omit [Fintype n] [DecidableEq n] in
theorem leakOf_conj (l : List n) (U : Matrix n n ℂ) : leakOf l (U.map star) = leakOf l U := by
  unfold leakOf
  have : (((U.map star).submatrix l.get l.get)ᴴ * (U.map star).submatrix l.get l.get).trace =
      star (((U.submatrix l.get l.get)ᴴ * U.submatrix l.get l.get).trace) := by
    simp [Matrix.trace, Matrix.mul_apply]
  rw [this]
  rfl

/-- **C174** The leakage is the same. -/
theorem c174_leakage (p : SPar n n) (τ : List ℝ) (h : Computes p τ) (l : List n) (u : Solver.Pulse)
    (hu : u.length = τ.length) (hrow : ∀ row ∈ u, row.length = p.ctrl.length) :
    ∃ c, (costOn (leakCosts l) p.bare.cfg (fresh p.bare.cfg τ u)).1 = .ok c ∧
      (costOn (leakCosts l) p.conjugated.bare.cfg (fresh p.conjugated.bare.cfg τ u)).1 = .ok c := by
  obtain ⟨f, f', U, e1, e2, e3, e4⟩ := h.last_conj u hu hrow
  rw [costOn_fwd e1, costOn_fwd e2]
  unfold leakCosts
  rw [last_ok (l := f) e3, last_ok (l := f') e4]
  exact ⟨_, rfl, congrArg (fun x => Except.ok (max 0 x)) (leakOf_conj l U)⟩

/-- **C174** The state infidelity with respect to the conjugated target is the same. -/
theorem c174_states (p : SPar n (Fin 1)) (τ : List ℝ) (h : Computes p τ) (cs : Option (List n)) (φ : Matrix (CompIdx cs) (Fin 1) ℂ)
    (rescale : Bool) (u : Solver.Pulse) (hu : u.length = τ.length) (hrow : ∀ row ∈ u, row.length = p.ctrl.length) :
    ∃ c, (costOn (stateCosts cs (asBra (.ket φ)) rescale) p.bare.cfg (fresh p.bare.cfg τ u)).1 = .ok c ∧
      (costOn (stateCosts cs (asBra (.ket (φ.map star))) rescale) p.conjugated.bare.cfg
        (fresh p.conjugated.bare.cfg τ u)).1 = .ok c := by
  obtain ⟨f, f', U, e1, e2, e3, e4⟩ := h.last_conj u hu hrow
  rw [costOn_fwd e1, costOn_fwd e2]
  have key : ∀ (A : Matrix (CompIdx cs) (Fin 1) ℂ) (B : Matrix n (Fin 1) ℂ) (g : List (Matrix n (Fin 1) ℂ)), g.getLast? = some B →
      stateCosts cs (asBra (.ket A)) rescale g =
        .ok (1 - (((Aᴴ * selRows cs B) 0 0).re ^ 2 + ((Aᴴ * selRows cs B) 0 0).im ^ 2)) := by
    intro A B g hg
    unfold stateCosts
    rw [last_ok (l := g) hg]
    simp only [bind, Except.bind, stateFid, and_self, dite_true]
    rfl
  rw [key _ _ f e3, key _ _ f' e4]
  have e : ((φ.map star)ᴴ * selRows cs (U.map star)) 0 0 = star ((φᴴ * selRows cs U) 0 0) := by
    cases cs <;> simp [Matrix.mul_apply, selRows]
  refine ⟨_, rfl, ?_⟩
  rw [e]
  simp

/-- Costs which agree for all pulses have the same gradient. -/
theorem same_gradient {p : SPar n m} {p' : SPar n k} {τ : List ℝ} {F : List (Matrix n m ℂ) → Except PyErr ℝ}
    {F' : List (Matrix n k ℂ) → Except PyErr ℝ} (hl : p'.ctrl.length = p.ctrl.length) {u : Solver.Pulse} (hu : u.length = τ.length)
    (hrow : ∀ row ∈ u, row.length = p.ctrl.length) {g g' : List (List ℝ)} (hg : IsGradient p τ F u g) (hg' : IsGradient p' τ F' u g')
    (hF : ∀ v : Solver.Pulse, v.length = τ.length → (∀ row ∈ v, row.length = p.ctrl.length) →
      ∃ c, (costOn F p.bare.cfg (fresh p.bare.cfg τ v)).1 = .ok c ∧ (costOn F' p'.bare.cfg (fresh p'.bare.cfg τ v)).1 = .ok c) : g' = g := by
  obtain ⟨g2, g3⟩ := hg
  obtain ⟨k2, k3⟩ := hg'
  have hg : g.length = τ.length := g2.1
  have hg' : g'.length = τ.length := k2.1
  refine List.ext_getElem (by simp [hg, hg']) fun i h1 h2 => ?_
  have r1 : g[i].length = p.ctrl.length := g2.2 _ (List.getElem_mem h2)
  have r2 : g'[i].length = p'.ctrl.length := k2.2 _ (List.getElem_mem h1)
  refine List.ext_getElem (by rw [r1, r2, hl]) fun c h3 h4 => ?_
  obtain ⟨G, cost, a1, a2, a3⟩ := g3 i c (by omega) (by omega)
  obtain ⟨G', cost', b1, b2, b3⟩ := k3 i c (by omega) (by omega)
  have hcost : cost' = cost := by
    funext x
    obtain ⟨v, w1, w2⟩ := hF (Solver.bump u i c x) ((bump_shape hrow _ _ _).1.trans hu) (bump_shape hrow _ _ _).2
    rw [a2 x] at w1
    rw [b2 x] at w2
    rw [Except.ok.inj w1, Except.ok.inj w2]
  rw [hcost] at b3
  have e := a3.unique b3
  unfold Cost.entry at a1 b1
  rw [List.getElem?_eq_getElem h2, Option.bind_some, List.getElem?_eq_getElem h4] at a1
  rw [List.getElem?_eq_getElem h1, Option.bind_some, List.getElem?_eq_getElem h3] at b1
  rw [Option.some.inj a1, Option.some.inj b1, e]

/-- The gradient of the infidelity exists. -/
theorem op_isGradient {p : SPar n n} {τ : List ℝ} (h : Exact p τ) (cl : Closest) (cs : Option (List n)) (hcs : cs ≠ some [])
    (mcu : Bool) (hm : mcu = false ∨ cs = none) (T : Matrix (CompIdx cs) (CompIdx cs) ℂ) (u : Solver.Pulse) (hu : u.length = τ.length)
    (hrow : ∀ row ∈ u, row.length = p.ctrl.length) :
    ∃ g, (gradOn (fun tr => opGrad cl cs T mcu tr.fwd tr.dP tr.rev) p.bare.cfg (fresh p.bare.cfg τ u)).1 = .ok g ∧
      IsGradient p τ (opCosts cl cs T mcu) u g := by
  obtain ⟨g, g1, g2, g3⟩ := c44_schroedinger p.bare τ h.valid h.stable h.method h.approx h.expm h.frechet h.steps cl cs hcs mcu hm T u u
    (bare_amps h.steps hu hrow)
  exact ⟨g, g1, g2, fun t c ht hc => g3 t c ht hc _ fun x => bare_amps h.steps ((bump_shape hrow _ _ _).1.trans hu) (bump_shape hrow _ _ _).2⟩

/-- **C174** The gradient of the infidelity is the same. -/
theorem c174_gradient (p : SPar n n) (τ : List ℝ) (h : Exact p τ) (cl : Closest) (cs : Option (List n)) (hcs : cs ≠ some [])
    (mcu : Bool) (hm : mcu = false ∨ cs = none) (T : Matrix (CompIdx cs) (CompIdx cs) ℂ) (u : Solver.Pulse) (hu : u.length = τ.length)
    (hrow : ∀ row ∈ u, row.length = p.ctrl.length) :
    ∃ g, (gradOn (fun tr => opGrad cl cs T mcu tr.fwd tr.dP tr.rev) p.bare.cfg (fresh p.bare.cfg τ u)).1 = .ok g ∧
      (gradOn (fun tr => opGrad cl cs (T.map star) mcu tr.fwd tr.dP tr.rev) p.conjugated.bare.cfg
        (fresh p.conjugated.bare.cfg τ u)).1 = .ok g := by
  obtain ⟨g, g1, g2⟩ := op_isGradient h cl cs hcs mcu hm T u hu hrow
  obtain ⟨g', k1, k2⟩ := op_isGradient h.conjugated cl cs hcs mcu hm (T.map star) u hu (by simpa [SPar.conjugated] using hrow)
  refine ⟨g, g1, k1.trans (congrArg Except.ok ?_)⟩
  exact same_gradient (by simp [SPar.conjugated]) hu hrow g2 k2 fun v hv hvr => c174_infidelity p τ h.computes cl cs mcu hm T v hv hvr

/-! ### Inverse pulses -/

omit [Fintype n] [DecidableEq n] in
theorem inverted_eq {p : SPar n m} (hd : ∀ H ∈ p.drift, H.IsHermitian) (hc : ∀ H ∈ p.ctrl, H.IsHermitian) (X : Matrix n k ℂ) :
    (p.mirrored (X.map star)).conjugated = p.inverted X := by
  have key : ∀ l : List (Matrix n n ℂ), (∀ H ∈ l, H.IsHermitian) → ((l.map fun H => Hᵀ).map fun H => -H.map star) = l.map fun H => -H := by
    intro l hl
    rw [List.map_map]
    exact List.map_congr_left fun H hH => congrArg Neg.neg (hl H hH)
  unfold SPar.conjugated SPar.mirrored SPar.inverted
  simp only [List.map_reverse]
  rw [key _ hd, key _ hc]
  congr 1
  ext i j
  simp

omit [Fintype n] [DecidableEq n] in
theorem inverted_one {p : SPar n n} (hd : ∀ H ∈ p.drift, H.IsHermitian) (hc : ∀ H ∈ p.ctrl, H.IsHermitian) [DecidableEq n] :
    (p.mirrored (1 : Matrix n n ℂ)).conjugated = p.inverted (1 : Matrix n n ℂ) := by
  have := inverted_eq hd hc (1 : Matrix n n ℂ)
  rwa [show (1 : Matrix n n ℂ).map star = 1 from Matrix.map_one _ (star_zero _) (star_one _)] at this

/-- **C174** With Hermitian Hamiltonians the pulse with opposite signs in opposite order performs the inverse operation. -/
theorem c174_inverse (p : SPar n n) (hi : p.init = 1) (τ : List ℝ) (h : Computes p τ) (hd : ∀ H ∈ p.drift, H.IsHermitian)
    (hc : ∀ H ∈ p.ctrl, H.IsHermitian) (u : Solver.Pulse) (hu : u.length = τ.length) (hrow : ∀ row ∈ u, row.length = p.ctrl.length) :
    ∃ f f' U, (readFwd p.bare.cfg (fresh p.bare.cfg τ u)).1 = .ok f ∧
      (readFwd (p.inverted (1 : Matrix n n ℂ)).bare.cfg (fresh (p.inverted (1 : Matrix n n ℂ)).bare.cfg τ.reverse u.reverse)).1 = .ok f' ∧
      f.getLast? = some U ∧ f'.getLast? = some U⁻¹ ∧ U ∈ Matrix.unitaryGroup n ℂ := by
  obtain ⟨f, e1, e2⟩ := h.last_evolve u hu hrow
  obtain ⟨f₂, f', U, a1, a2, a3, a4⟩ := h.last_mirrored (1 : Matrix n n ℂ) u hu hrow
  rw [e1] at a1
  cases a1
  rw [e2, hi, Matrix.mul_one, Matrix.mul_one] at a3
  obtain rfl := Option.some.inj a3
  rw [hi, Matrix.mul_one] at e2
  obtain ⟨hu', hr'⟩ := mirror_shape hu hrow (1 : Matrix n n ℂ)
  obtain ⟨g, g', W, b1, b2, b3, b4⟩ := (h.mirrored (1 : Matrix n n ℂ)).last_conj u.reverse hu' hr'
  rw [a2] at b1
  cases b1
  rw [a4, Matrix.mul_one] at b3
  rw [inverted_one hd hc] at b2
  have hU : evolve (totals p τ u) ∈ Matrix.unitaryGroup n ℂ := evolve_unitary _ (totals_hermitian hd hc τ u)
  refine ⟨f, g', _, e1, b2, e2, ?_, hU⟩
  rw [b4, ← Option.some.inj b3, Matrix.inv_eq_left_inv (Matrix.mem_unitaryGroup_iff'.mp hU)]
  rfl

/-- **C174** The infidelity of the inverse pulse with respect to the inverse operation is the same. -/
theorem c174_inverse_infidelity (p : SPar n n) (hi : p.init = 1) (τ : List ℝ) (h : Computes p τ) (hd : ∀ H ∈ p.drift, H.IsHermitian)
    (hc : ∀ H ∈ p.ctrl, H.IsHermitian) (cl : Closest) (cs : Option (List n)) (mcu : Bool) (hm : mcu = false ∨ cs = none)
    (T : Matrix (CompIdx cs) (CompIdx cs) ℂ) (u : Solver.Pulse) (hu : u.length = τ.length) (hrow : ∀ row ∈ u, row.length = p.ctrl.length) :
    ∃ c, (costOn (opCosts cl cs T mcu) p.bare.cfg (fresh p.bare.cfg τ u)).1 = .ok c ∧
      (costOn (opCosts cl cs Tᴴ mcu) (p.inverted (1 : Matrix n n ℂ)).bare.cfg
        (fresh (p.inverted (1 : Matrix n n ℂ)).bare.cfg τ.reverse u.reverse)).1 = .ok c := by
  obtain ⟨c, c1, c2⟩ := c158_infidelity p hi τ h cl cs mcu hm T u hu hrow
  obtain ⟨hu', hr'⟩ := mirror_shape hu hrow (1 : Matrix n n ℂ)
  obtain ⟨d, d1, d2⟩ := c174_infidelity _ _ (h.mirrored (1 : Matrix n n ℂ)) cl cs mcu hm Tᵀ u.reverse hu' hr'
  rw [c2] at d1
  rw [inverted_one hd hc] at d2
  rw [← Except.ok.inj d1] at d2
  exact ⟨c, c1, d2⟩

/-- **C174** Its gradient is the gradient in opposite order. -/
theorem c174_inverse_gradient (p : SPar n n) (hi : p.init = 1) (τ : List ℝ) (h : Exact p τ) (hd : ∀ H ∈ p.drift, H.IsHermitian)
    (hc : ∀ H ∈ p.ctrl, H.IsHermitian) (cl : Closest) (cs : Option (List n)) (hcs : cs ≠ some []) (mcu : Bool) (hm : mcu = false ∨ cs = none)
    (T : Matrix (CompIdx cs) (CompIdx cs) ℂ) (u : Solver.Pulse) (hu : u.length = τ.length) (hrow : ∀ row ∈ u, row.length = p.ctrl.length) :
    ∃ g, (gradOn (fun tr => opGrad cl cs T mcu tr.fwd tr.dP tr.rev) p.bare.cfg (fresh p.bare.cfg τ u)).1 = .ok g ∧
      (gradOn (fun tr => opGrad cl cs Tᴴ mcu tr.fwd tr.dP tr.rev) (p.inverted (1 : Matrix n n ℂ)).bare.cfg
        (fresh (p.inverted (1 : Matrix n n ℂ)).bare.cfg τ.reverse u.reverse)).1 = .ok g.reverse := by
  obtain ⟨c, c1, c2⟩ := c158_gradient p hi τ h cl cs hcs mcu hm T u hu hrow
  obtain ⟨hu', hr'⟩ := mirror_shape hu hrow (1 : Matrix n n ℂ)
  obtain ⟨d, d1, d2⟩ := c174_gradient _ _ (h.mirrored (1 : Matrix n n ℂ)) cl cs hcs mcu hm Tᵀ u.reverse hu' hr'
  rw [c2] at d1
  rw [inverted_one hd hc] at d2
  rw [← Except.ok.inj d1] at d2
  exact ⟨c, c1, d2⟩

namespace Ex174

/-- The Hamiltonians of the example are Hermitian. -/
theorem hermitian (L : Lapack (Fin 2)) : (∀ H ∈ (Ex158.par L !![0, -Complex.I; Complex.I, 0]).drift, H.IsHermitian) ∧
    ∀ H ∈ (Ex158.par L !![0, -Complex.I; Complex.I, 0]).ctrl, H.IsHermitian := by
  constructor
  · intro H hH
    simp only [Ex158.par, List.mem_cons, List.not_mem_nil, or_false] at hH
    rcases hH with rfl | rfl | rfl <;> ext i j <;> fin_cases i <;> fin_cases j <;> simp
  · intro H hH
    simp only [Ex158.par, List.mem_cons, List.not_mem_nil, or_false] at hH
    rcases hH with rfl | rfl <;> ext i j <;> fin_cases i <;> fin_cases j <;> simp

/-- A qubit with different drifts in three time steps and two controls: the propagators, the infidelity of a gate with complex
entries, its gradient and the leakage of the conjugated system. -/
example (x y z : ℝ) : ∃ (L : Lapack (Fin 2)) (f : List (Matrix (Fin 2) (Fin 2) ℂ)) (c d : ℝ) (g : List (List ℝ)),
    let p := Ex158.par L !![0, -Complex.I; Complex.I, 0]
    let s := fresh p.bare.cfg [1, 2, 3] [[x, y], [z, 1], [2, x]]
    let s' := fresh p.conjugated.bare.cfg [1, 2, 3] [[x, y], [z, 1], [2, x]]
    let T : Matrix (Fin 2) (Fin 2) ℂ := !![0, 1; Complex.I, 0]
    (readFwd p.bare.cfg s).1 = .ok f ∧ f.length = 4 ∧ (readFwd p.conjugated.bare.cfg s').1 = .ok (f.map fun F => F.map star) ∧
    (costOn (opCosts (fun _ A => A) none T false) p.bare.cfg s).1 = .ok c ∧
    (costOn (opCosts (fun _ A => A) none (T.map star) false) p.conjugated.bare.cfg s').1 = .ok c ∧
    (gradOn (fun tr => opGrad (fun _ A => A) none T false tr.fwd tr.dP tr.rev) p.bare.cfg s).1 = .ok g ∧
    (gradOn (fun tr => opGrad (fun _ A => A) none (T.map star) false tr.fwd tr.dP tr.rev) p.conjugated.bare.cfg s').1 = .ok g ∧
    (costOn (leakCosts [0]) p.bare.cfg s).1 = .ok d ∧ (costOn (leakCosts [0]) p.conjugated.bare.cfg s').1 = .ok d := by
  obtain ⟨L, -, -, hE, hF⟩ := lapack_exists (Fin 2)
  have h := Ex158.exact hE hF !![0, -Complex.I; Complex.I, 0] 1 2 3
  have hr : ∀ row ∈ ([[x, y], [z, 1], [2, x]] : Solver.Pulse), row.length = (Ex158.par L !![0, -Complex.I; Complex.I, 0]).ctrl.length := by
    simp [Ex158.par]
  obtain ⟨f, e1, e2, e3⟩ := c174_propagators _ _ h.computes _ rfl hr
  obtain ⟨c, c1, c2⟩ := c174_infidelity _ _ h.computes (fun _ A => A) none false (Or.inl rfl) !![0, 1; Complex.I, 0] _ rfl hr
  obtain ⟨g, g1, g2⟩ := c174_gradient _ _ h (fun _ A => A) none (by simp) false (Or.inl rfl) !![0, 1; Complex.I, 0] _ rfl hr
  obtain ⟨d, d1, d2⟩ := c174_leakage _ _ h.computes [0] _ rfl hr
  exact ⟨L, f, c, d, g, e1, e2, e3, c1, c2, g1, g2, d1, d2⟩

/-- The pulse of the same qubit with opposite signs in opposite order. -/
example (x y z : ℝ) : ∃ (L : Lapack (Fin 2)) (f f' : List (Matrix (Fin 2) (Fin 2) ℂ)) (U : Matrix (Fin 2) (Fin 2) ℂ) (c : ℝ) (g : List (List ℝ)),
    let p := Ex158.par L !![0, -Complex.I; Complex.I, 0]
    let p' : SPar (Fin 2) (Fin 2) := { p with
      drift := [-!![1, 0; 0, 2], -0, -!![1, 0; 0, -1]], ctrl := [-!![0, 1; 1, 0], -!![0, -Complex.I; Complex.I, 0]] }
    let s := fresh p.bare.cfg [1, 2, 3] [[x, y], [z, 1], [2, x]]
    let s' := fresh p'.bare.cfg [3, 2, 1] [[2, x], [z, 1], [x, y]]
    let T : Matrix (Fin 2) (Fin 2) ℂ := !![0, 1; Complex.I, 0]
    (readFwd p.bare.cfg s).1 = .ok f ∧ (readFwd p'.bare.cfg s').1 = .ok f' ∧ f.getLast? = some U ∧ f'.getLast? = some U⁻¹ ∧
    (costOn (opCosts (fun _ A => A) none T false) p.bare.cfg s).1 = .ok c ∧
    (costOn (opCosts (fun _ A => A) none Tᴴ false) p'.bare.cfg s').1 = .ok c ∧
    (gradOn (fun tr => opGrad (fun _ A => A) none T false tr.fwd tr.dP tr.rev) p.bare.cfg s).1 = .ok g ∧
    (gradOn (fun tr => opGrad (fun _ A => A) none Tᴴ false tr.fwd tr.dP tr.rev) p'.bare.cfg s').1 = .ok g.reverse := by
  obtain ⟨L, -, -, hE, hF⟩ := lapack_exists (Fin 2)
  have h := Ex158.exact hE hF !![0, -Complex.I; Complex.I, 0] 1 2 3
  obtain ⟨hd, hc⟩ := hermitian L
  have hr : ∀ row ∈ ([[x, y], [z, 1], [2, x]] : Solver.Pulse), row.length = (Ex158.par L !![0, -Complex.I; Complex.I, 0]).ctrl.length := by
    simp [Ex158.par]
  obtain ⟨f, f', U, e1, e2, e3, e4, -⟩ := c174_inverse _ rfl _ h.computes hd hc _ rfl hr
  obtain ⟨c, c1, c2⟩ := c174_inverse_infidelity _ rfl _ h.computes hd hc (fun _ A => A) none false (Or.inl rfl) !![0, 1; Complex.I, 0] _ rfl hr
  obtain ⟨g, g1, g2⟩ := c174_inverse_gradient _ rfl _ h hd hc (fun _ A => A) none (by simp) false (Or.inl rfl) !![0, 1; Complex.I, 0] _ rfl hr
  exact ⟨L, f, f', U, c, g, e1, e2, e3, e4, c1, c2, g1, g2⟩

/-- A state with complex entries. -/
example (x y z : ℝ) : ∃ (L : Lapack (Fin 2)) (c : ℝ),
    let p : SPar (Fin 2) (Fin 1) := { Ex93.ket L with drift := [!![1, 0; 0, -1], 0, !![1, 0; 0, 2]] }
    (costOn (stateCosts none (asBra (.ket !![1; Complex.I])) false) p.bare.cfg (fresh p.bare.cfg [1, 2, 3] [[x, y], [z, 1], [2, x]])).1 = .ok c ∧
    (costOn (stateCosts none (asBra (.ket (!![1; Complex.I].map star))) false) p.conjugated.bare.cfg
      (fresh p.conjugated.bare.cfg [1, 2, 3] [[x, y], [z, 1], [2, x]])).1 = .ok c := by
  obtain ⟨L, -, -, hE, hF⟩ := lapack_exists (Fin 2)
  obtain ⟨c, c1, c2⟩ := c174_states { Ex93.ket L with drift := [!![1, 0; 0, -1], 0, !![1, 0; 0, 2]] } [1, 2, 3]
    ⟨by simp [Ex93.ket], rfl, by simp, Or.inl ⟨rfl, rfl⟩, Or.inl ⟨rfl, hE⟩⟩ none !![1; Complex.I] false [[x, y], [z, 1], [2, x]] rfl
    (by simp [Ex93.ket])
  exact ⟨L, c, c1, c2⟩

end Ex174
end Verif.Sim
