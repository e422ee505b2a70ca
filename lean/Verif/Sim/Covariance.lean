import Verif.Sim.Refine

/-!
# C104: units, basis and the zero of energy

A description of a physical system contains arbitrary choices: the unit of energy (with the unit of time its inverse), the
orthonormal basis, and the zero of energy.  Other choices describe the same experiment.
-/

namespace Verif.Sim
open Verif Verif.Transfer Verif.Operator Verif.Solver Verif.Cost Matrix

variable {n m : Type} [Fintype n] [DecidableEq n] {q : Nat}

/-! ## Specification -/

/-- Specification: an operator in other units (`a`), another basis (the columns of `Vᴴ`) and, for the drift, with a shifted zero of
energy (`e`). -/
noncomputable def rewrite (V : Matrix n n ℂ) (a e : ℝ) (H : Matrix n n ℂ) : Matrix n n ℂ :=
  (a : ℂ) • (V * H * Vᴴ) + (e : ℂ) • (1 : Matrix n n ℂ)

/-- Specification: the arguments of the solver for the rewritten system.  The initial operator is rewritten as `V X W`, with
`W = Vᴴ` for operators and `W = 1` for kets. -/
noncomputable def _root_.Verif.Solver.SPar.rewritten [Fintype m] (p : SPar n m) (V : Matrix n n ℂ) (W : Matrix m m ℂ) (a e : ℝ) : SPar n m :=
  { p with init := V * p.init * W, drift := p.drift.map (rewrite V a e), ctrl := p.ctrl.map (rewrite V a 0) }

/-- Specification: the methods that compute the matrix exponential itself, and what the constructor guarantees. -/
structure Computes (p : SPar n m) (τ : List ℝ) : Prop where
  ctrl : p.ctrl ≠ []
  drift : p.drift.length = τ.length
  steps : τ ≠ []
  stable : Stable p.bare.cfg
  method : (p.method = .frechet ∧ p.L.ExpmOk) ∨ (p.method = .spectral ∧ p.skew = true ∧ p.L.EighOk ∧
    (∀ H ∈ p.drift, H.IsHermitian) ∧ ∀ H ∈ p.ctrl, H.IsHermitian)

/-! ## Lemmas -/

theorem rewrite_add (V : Matrix n n ℂ) (a e : ℝ) (A B : Matrix n n ℂ) : rewrite V a e A + rewrite V a 0 B = rewrite V a e (A + B) := by
  unfold rewrite
  rw [Matrix.mul_add, Matrix.add_mul, smul_add]
  push_cast
  rw [zero_smul]
  abel

theorem rewrite_smul (V : Matrix n n ℂ) (a : ℝ) (c : ℂ) (A : Matrix n n ℂ) : c • rewrite V a 0 A = rewrite V a 0 (c • A) := by
  unfold rewrite
  push_cast
  rw [Matrix.mul_smul, Matrix.smul_mul, smul_add, zero_smul, smul_zero, smul_comm]

theorem rewrite_hermitian {V : Matrix n n ℂ} {a e : ℝ} {H : Matrix n n ℂ} (h : H.IsHermitian) : (rewrite V a e H).IsHermitian := by
  unfold Matrix.IsHermitian rewrite
  rw [Matrix.conjTranspose_add, Matrix.conjTranspose_smul, Matrix.conjTranspose_smul, Matrix.conjTranspose_mul,
    Matrix.conjTranspose_mul, h, Matrix.conjTranspose_conjTranspose, Matrix.conjTranspose_one, Matrix.mul_assoc]
  simp

theorem rewrite_hamiltonian (V : Matrix n n ℂ) (a e : ℝ) (H₀ : Matrix n n ℂ) (ctrl : List (Matrix n n ℂ)) (row : List ℝ) :
    hamiltonian (rewrite V a e H₀) (ctrl.map (rewrite V a 0)) row = rewrite V a e (hamiltonian H₀ ctrl row) := by
  unfold hamiltonian
  rw [← rewrite_add]
  congr 1
  induction row generalizing ctrl with
  | nil => simp [rewrite]
  | cons x row ih =>
    cases ctrl with
    | nil => simp [rewrite]
    | cons H ctrl =>
      rw [List.map_cons, List.zipWith_cons_cons, List.sum_cons, ih, rewrite_smul, rewrite_add, List.zipWith_cons_cons,
        List.sum_cons]

theorem exp_scalar (c : ℂ) : NormedSpace.exp (c • (1 : Matrix n n ℂ)) = Complex.exp c • (1 : Matrix n n ℂ) := by
  rw [smul_one_eq_diagonal, Matrix.exp_diagonal, smul_one_eq_diagonal]
  congr 1
  funext i
  rw [Pi.coe_exp, ← Complex.exp_eq_exp_ℂ]

/-- The evolution of the rewritten system. -/
theorem exp_rewrite {V : Matrix n n ℂ} (hV : V ∈ Matrix.unitaryGroup n ℂ) {a : ℝ} (ha : a ≠ 0) (e s : ℝ) (H : Matrix n n ℂ) :
    NormedSpace.exp (((s / a : ℝ) : ℂ) • ((-Complex.I) • rewrite V a e H)) =
      Complex.exp (-Complex.I * (e * (s / a) : ℝ)) • (V * NormedSpace.exp ((s : ℂ) • ((-Complex.I) • H)) * Vᴴ) := by
  have hV1 : V * Vᴴ = 1 := Matrix.mem_unitaryGroup_iff.mp hV
  have hV2 : Vᴴ * V = 1 := Matrix.mem_unitaryGroup_iff'.mp hV
  have ha' : (a : ℂ) ≠ 0 := by exact_mod_cast ha
  have h1 : ((s / a : ℝ) : ℂ) • ((-Complex.I) • rewrite V a e H) =
      V * ((s : ℂ) • ((-Complex.I) • H)) * Vᴴ + (-Complex.I * (e * (s / a) : ℝ)) • (1 : Matrix n n ℂ) := by
    unfold rewrite
    rw [smul_add, smul_add, Matrix.mul_smul, Matrix.smul_mul, Matrix.mul_smul, Matrix.smul_mul, smul_smul, smul_smul, smul_smul,
      smul_smul, smul_smul]
    congr 2
    · push_cast
      field_simp
    · push_cast
      ring
  have h2 : Commute (V * ((s : ℂ) • ((-Complex.I) • H)) * Vᴴ) ((-Complex.I * (e * (s / a) : ℝ)) • (1 : Matrix n n ℂ)) :=
    (Commute.one_right _).smul_right _
  rw [h1, Matrix.exp_add_of_commute _ _ h2, exp_scalar, Matrix.mul_smul, Matrix.mul_one]
  congr 1
  have h3 := Matrix.exp_units_conj ⟨V, Vᴴ, hV1, hV2⟩ ((s : ℂ) • ((-Complex.I) • H))
  exact h3

theorem propOf_exp {p : SPar n m} (h : (p.method = .frechet ∧ p.L.ExpmOk) ∨ (p.method = .spectral ∧ p.skew = true ∧ p.L.EighOk))
    {H : Matrix n n ℂ} (hH : p.method = .spectral → H.IsHermitian) (s : ℝ) :
    propOf p.cfg ((-Complex.I) • H) s = NormedSpace.exp ((s : ℂ) • ((-Complex.I) • H)) := by
  rcases h with ⟨hm, hL⟩ | ⟨hm, hs, hL⟩
  · have : propOf p.cfg ((-Complex.I) • H) s = p.L.expm ((s : ℂ) • ((-Complex.I) • H)) := by
      unfold propOf dexpProp expProp
      have : p.cfg.method = .frechet := hm
      rw [this]
      split <;> rfl
    rw [this, hL]
  · have hsp := c19_exponential p.L hL _ (skew_of_hermitian (hH hm)) (s : ℂ)
    unfold propOf dexpProp expProp
    have h1 : p.cfg.method = .spectral := hm
    have h2 : p.cfg.skew = true := hs
    have h3 : p.cfg.L = p.L := rfl
    rw [h1, h2, h3, hsp]
    simp only [Operator.exp, Except.ok.injEq] at hsp
    split
    · exact hsp
    · rfl

theorem hamiltonian_hermitian {H₀ : Matrix n n ℂ} (h0 : H₀.IsHermitian) {ctrl : List (Matrix n n ℂ)}
    (hc : ∀ H ∈ ctrl, H.IsHermitian) (row : List ℝ) : (hamiltonian H₀ ctrl row).IsHermitian := by
  unfold hamiltonian
  refine h0.add ?_
  induction row generalizing ctrl with
  | nil => simp
  | cons x row ih =>
    cases ctrl with
    | nil => simp
    | cons H ctrl =>
      rw [List.zipWith_cons_cons, List.sum_cons]
      refine Matrix.IsHermitian.add ?_ (ih fun G hG => hc G (by simp [hG]))
      unfold Matrix.IsHermitian
      rw [Matrix.conjTranspose_smul, hc H (by simp)]
      simp

theorem Computes.step {p : SPar n m} {τ : List ℝ} (h : Computes p τ) (u : Solver.Pulse) (t : Nat) (ht : t < τ.length) :
    p.bare.step τ u t = NormedSpace.exp (((τ.getD t 0 : ℝ) : ℂ) • ((-Complex.I) • hamiltonian (p.drift.getD t 0) p.ctrl (u.getD t []))) := by
  refine propOf_exp (p := p.bare) ?_ ?_ _
  · rcases h.method with h | h
    · exact Or.inl h
    · exact Or.inr ⟨h.1, h.2.1, h.2.2.1⟩
  · intro hm
    rcases h.method with h1 | h1
    · have : p.method = .spectral := hm
      rw [h1.1] at this
      cases this
    · refine hamiltonian_hermitian (h1.2.2.2.1 _ ?_) h1.2.2.2.2 _
      have : t < p.bare.drift.length := by show t < p.drift.length; rw [h.drift]; exact ht
      rw [List.getD_eq_getElem _ _ this]
      exact List.getElem_mem _

theorem Computes.rewritten [Fintype m] {p : SPar n m} {τ : List ℝ} (h : Computes p τ) (V : Matrix n n ℂ) (W : Matrix m m ℂ) (a e : ℝ) :
    Computes (p.rewritten V W a e) (τ.map (· / a)) := by
  refine ⟨by simpa [SPar.rewritten] using h.ctrl, by simpa [SPar.rewritten] using h.drift, by simpa using h.steps, ?_, ?_⟩
  · rcases h.stable with h1 | ⟨h1, h2, -⟩ | h1
    · exact Or.inl h1
    · refine Or.inr (Or.inl ⟨h1, h2, fun times u t Ds hD => ?_⟩)
      have : (List.replicate times.length ((p.ctrl.map (rewrite V a 0)).map fun H => (-Complex.I) • H))[t]? = some Ds := hD
      rw [List.getElem?_replicate] at this
      split at this
      · simp only [Option.some.injEq] at this
        rw [← this]
        simpa using h.ctrl
      · cases this
    · exact Or.inr (Or.inr h1)
  · rcases h.method with h1 | h1
    · exact Or.inl h1
    · refine Or.inr ⟨h1.1, h1.2.1, h1.2.2.1, fun H hH => ?_, fun H hH => ?_⟩
      · obtain ⟨G, hG, rfl⟩ := List.mem_map.mp hH
        exact rewrite_hermitian (h1.2.2.2.1 G hG)
      · obtain ⟨G, hG, rfl⟩ := List.mem_map.mp hH
        exact rewrite_hermitian (h1.2.2.2.2 G hG)

/-- What a new solver computes for the amplitudes `u`. -/
theorem Computes.fwd {p : SPar n m} {τ : List ℝ} (h : Computes p τ) (u : Solver.Pulse) (hu : u.length = τ.length)
    (hrow : ∀ row ∈ u, row.length = p.ctrl.length) :
    ∃ f, (readFwd p.bare.cfg (fresh p.bare.cfg τ u)).1 = .ok f ∧ IsForward p.init (p.bare.steps τ u) f := by
  have hne : u ≠ [] := by
    intro h0
    rw [h0] at hu
    exact h.steps (List.length_eq_zero_iff.mp hu.symm)
  have hm : p.method ≠ .other := by rcases h.method with h | h <;> rw [h.1] <;> simp
  obtain ⟨r, e1, e2, e3, e4⟩ := idAmp_ok u p.ctrl.length hne hrow
  have ha := ampsOf_some p.bare.cfg τ u u r rfl e1 e2 (by rw [e4]; exact hu) e3
  rw [e4] at ha
  obtain ⟨f, s', g1, g2, -⟩ := (ready_fresh p.bare τ u u ha).fwd ⟨h.ctrl, h.drift, hm⟩ h.stable
  exact ⟨f, by rw [g1], g2⟩

/-! ## C104 -/

/-- **C104** The forward propagators of the rewritten system are the rewritten forward propagators, up to the phase which
belongs to the shift of the energy. -/
theorem c104_forward [Fintype m] (p : SPar n m) (τ : List ℝ) (h : Computes p τ) (V : Matrix n n ℂ)
    (hV : V ∈ Matrix.unitaryGroup n ℂ) (W : Matrix m m ℂ) (a e : ℝ) (ha : a ≠ 0) (u : Solver.Pulse) (hu : u.length = τ.length)
    (hrow : ∀ row ∈ u, row.length = p.ctrl.length) :
    ∃ f f', (readFwd p.bare.cfg (fresh p.bare.cfg τ u)).1 = .ok f ∧
      (readFwd (p.rewritten V W a e).bare.cfg (fresh (p.rewritten V W a e).bare.cfg (τ.map (· / a)) u)).1 = .ok f' ∧
      f.length = τ.length + 1 ∧ f'.length = τ.length + 1 ∧
      ∀ i ≤ τ.length, ∃ F, f[i]? = some F ∧
        f'[i]? = some (Complex.exp (-Complex.I * (e * ((τ.take i).map (· / a)).sum : ℝ)) • (V * F * W)) := by
  have hV2 : Vᴴ * V = 1 := Matrix.mem_unitaryGroup_iff'.mp hV
  have h' := h.rewritten V W a e
  obtain ⟨f, e1, e2⟩ := h.fwd u hu hrow
  obtain ⟨f', e3, e4⟩ := h'.fwd u (by simpa using hu) (by simpa [SPar.rewritten] using hrow)
  have hl : (p.bare.steps τ u).length = τ.length := steps_length _ _ _
  have hl' : ((p.rewritten V W a e).bare.steps (τ.map (· / a)) u).length = τ.length := by
    rw [steps_length]
    show (τ.map (· / a)).length = _
    simp
  refine ⟨f, f', e1, e3, by rw [e2.1, hl], by rw [e4.1, hl'], fun i hi => ?_⟩
  induction i with
  | zero => exact ⟨_, e2.2.1, by rw [e4.2.1]; simp [SPar.rewritten]⟩
  | succ i ih =>
    obtain ⟨F, g1, g2⟩ := ih (by omega)
    obtain ⟨F₁, k1, k2⟩ := e2.2.2 i (by omega)
    obtain ⟨F₂, k3, k4⟩ := e4.2.2 i (by omega)
    rw [g1] at k1
    rw [g2] at k3
    simp only [Option.some.injEq] at k1 k3
    subst k1 k3
    refine ⟨_, k2, ?_⟩
    rw [k4]
    congr 1
    have hi' : i < τ.length := by omega
    have hd : i < p.drift.length := by rw [h.drift]; exact hi'
    have s1 : (p.bare.steps τ u)[i] = NormedSpace.exp (((τ.getD i 0 : ℝ) : ℂ) • ((-Complex.I) •
        hamiltonian (p.drift.getD i 0) p.ctrl (u.getD i []))) := by
      rw [← h.step u i hi']
      simp [SPar.steps]
    have s2 : ((p.rewritten V W a e).bare.steps (τ.map (· / a)) u)[i] =
        Complex.exp (-Complex.I * (e * (τ.getD i 0 / a) : ℝ)) • (V * (p.bare.steps τ u)[i] * Vᴴ) := by
      have : ((p.rewritten V W a e).bare.steps (τ.map (· / a)) u)[i] = (p.rewritten V W a e).bare.step (τ.map (· / a)) u i := by
        simp [SPar.steps]
      rw [this, h'.step u i (by simpa using hi'), s1, ← exp_rewrite hV ha]
      congr 3
      · rw [List.getD_eq_getElem _ _ hi', List.getD_eq_getElem _ _ (by simpa using hi'), List.getElem_map]
      · show hamiltonian ((p.drift.map (rewrite V a e)).getD i 0) (p.ctrl.map (rewrite V a 0)) _ = _
        rw [← rewrite_hamiltonian, List.getD_eq_getElem _ _ (by simpa using hd), List.getElem_map, List.getD_eq_getElem _ _ hd]
    rw [s2, Matrix.smul_mul, Matrix.mul_smul, smul_smul, ← Complex.exp_add]
    congr 1
    · congr 1
      rw [List.take_add_one, List.map_append, List.sum_append, List.getElem?_eq_getElem hi', List.getD_eq_getElem _ _ hi']
      simp only [Option.toList_some, List.map_cons, List.map_nil, List.sum_singleton]
      push_cast
      ring
    · simp only [Matrix.mul_assoc]
      congr 2
      rw [← Matrix.mul_assoc Vᴴ, hV2, Matrix.one_mul]

/-- Specification: two new solver objects whose transfer functions do the same to pulses of `N` steps (the times they were given
may be in other units). -/
structure Similar (N : Nat) (s s' : SolverObj q) : Prop where
  obj : ∃ (c : Nat) (t t' : TF ℝ q) (a : AmpFunc q c) (k : Nat), s = ⟨c, t, a, k, none, none⟩ ∧ s' = ⟨c, t', a, k, none, none⟩ ∧
    ∀ y : Transfer.Pulse ℝ q, y.length = N → t'.run y = t.run y
  left : Assembled s N
  right : Assembled s' N

/-- Specification: the same infidelity of two descriptions of the same system.  The target of a gate is rewritten like the
operators, the bra of a target state like a state; a subspace given by basis states excludes a change of the basis. -/
inductive SameSystem (s : SolverObj q) (F F' : CostFn q) : Prop
  | operation {n : Type} [Fintype n] [DecidableEq n] (p : SPar n n) (τ : List ℝ) (h : Exact p τ) (hc : s.c = p.ctrl.length)
      (hN : s.nTimes = τ.length) (V : Matrix n n ℂ) (hV : V ∈ Matrix.unitaryGroup n ℂ) (a e : ℝ) (ha : a ≠ 0) (cl : Closest)
      (T : Matrix n n ℂ) (mcu : Bool) (i : Nat) (label : String) (hF : F = operationCost p τ cl none T mcu i label)
      (hF' : F' = operationCost (p.rewritten V Vᴴ a e) (τ.map (· / a)) cl none (V * T * Vᴴ) mcu i label)
  | subspace {n : Type} [Fintype n] [DecidableEq n] (p : SPar n n) (τ : List ℝ) (h : Exact p τ) (hc : s.c = p.ctrl.length)
      (hN : s.nTimes = τ.length) (a e : ℝ) (ha : a ≠ 0) (cl : Closest) (cs : Option (List n)) (hcs : cs ≠ some [])
      (T : Matrix (CompIdx cs) (CompIdx cs) ℂ) (i : Nat) (label : String)
      (hF : F = operationCost p τ cl cs T false i label)
      (hF' : F' = operationCost (p.rewritten 1 1 a e) (τ.map (· / a)) cl cs T false i label)
  | state {n : Type} [Fintype n] [DecidableEq n] (p : SPar n (Fin 1)) (τ : List ℝ) (h : Exact p τ) (hc : s.c = p.ctrl.length)
      (hN : s.nTimes = τ.length) (V : Matrix n n ℂ) (hV : V ∈ Matrix.unitaryGroup n ℂ) (a e : ℝ) (ha : a ≠ 0)
      (T : Matrix (Fin 1) n ℂ) (r : Bool) (i : Nat) (label : String) (hF : F = stateCost p τ none T r i label)
      (hF' : F' = stateCost (p.rewritten V 1 a e) (τ.map (· / a)) none (T * Vᴴ) r i label)
  | leakage {n : Type} [Fintype n] [DecidableEq n] (p : SPar n n) (τ : List ℝ) (h : Exact p τ) (hc : s.c = p.ctrl.length)
      (hN : s.nTimes = τ.length) (hdH : ∀ H ∈ p.drift, H.IsHermitian) (hcH : ∀ H ∈ p.ctrl, H.IsHermitian)
      (hi : p.init ∈ Matrix.unitaryGroup n ℂ) (a e : ℝ) (ha : a ≠ 0) (l : List n) (hl : l.Nodup) (hne : l ≠ []) (i : Nat)
      (label : String) (hF : F = leakageCost p τ l i label)
      (hF' : F' = leakageCost (p.rewritten 1 1 a e) (τ.map (· / a)) l i label)

/-- Specification: simulators of the same experiment in two descriptions. -/
structure SameExperiment (N : Nat) (sim sim' : Sim q) : Prop where
  solvers : List.Forall₂ (Similar N) sim.solvers sim'.solvers
  costs : List.Forall₂ (fun F F' => F.solver = F'.solver ∧ ∃ s s', sim.solvers[F.solver]? = some s ∧
    sim'.solvers[F'.solver]? = some s' ∧ Similar N s s' ∧ SameSystem s F F') sim.costFuncs sim'.costFuncs
  nonempty : sim.costFuncs ≠ []

theorem exact_rewritten [Fintype m] {p : SPar n m} {τ : List ℝ} (h : Exact p τ) (V : Matrix n n ℂ) (W : Matrix m m ℂ) (a e : ℝ) :
    Exact (p.rewritten V W a e) (τ.map (· / a)) := by
  have hc : Computes p τ := ⟨h.ctrl, h.drift, h.steps, h.stable, Or.inl ⟨h.method, h.expm⟩⟩
  have hc' := hc.rewritten V W a e
  exact ⟨hc'.ctrl, hc'.drift, hc'.steps, h.method, h.approx, h.expm, h.frechet, hc'.stable⟩

theorem SameSystem.infidelity {N : Nat} {s s' : SolverObj q} {F F' : CostFn q} (h : Similar N s s') (hF : SameSystem s F F') :
    Infidelity F s ∧ Infidelity F' s' := by
  obtain ⟨c, t, t', a, k, rfl, rfl, -⟩ := h.obj
  cases hF with
  | operation p τ h hc hN V hV a e ha cl T mcu i label hF hF' =>
    exact ⟨.operation p τ h hc hN cl none (by simp) mcu (Or.inr rfl) T i label hF,
      .operation _ _ (exact_rewritten h V Vᴴ a e) (by simpa [SPar.rewritten] using hc) (by simpa using hN) cl none (by simp) mcu
        (Or.inr rfl) _ i label hF'⟩
  | subspace p τ h hc hN a e ha cl cs hcs T i label hF hF' =>
    exact ⟨.operation p τ h hc hN cl cs hcs false (Or.inl rfl) T i label hF,
      .operation _ _ (exact_rewritten h 1 1 a e) (by simpa [SPar.rewritten] using hc) (by simpa using hN) cl cs hcs false
        (Or.inl rfl) _ i label hF'⟩
  | state p τ h hc hN V hV a e ha T r i label hF hF' =>
    exact ⟨.state p τ h hc hN none (by simp) T r i label hF,
      .state _ _ (exact_rewritten h V 1 a e) (by simpa [SPar.rewritten] using hc) (by simpa using hN) none (by simp) _ r i label hF'⟩
  | leakage p τ h hc hN hdH hcH hi a e ha l hl hne i label hF hF' =>
    refine ⟨.leakage p τ h hc hN hdH hcH hi l hl hne i label hF,
      .leakage _ _ (exact_rewritten h 1 1 a e) (by simpa [SPar.rewritten] using hc) (by simpa using hN) ?_ ?_ ?_ l hl hne i label hF'⟩
    · intro H hH
      obtain ⟨G, hG, rfl⟩ := List.mem_map.mp hH
      exact rewrite_hermitian (hdH G hG)
    · intro H hH
      obtain ⟨G, hG, rfl⟩ := List.mem_map.mp hH
      exact rewrite_hermitian (hcH G hG)
    · simpa [SPar.rewritten] using hi

/-- Cost functions of the final propagator only. -/
theorem solverCost_rewritten [Fintype m] {p : SPar n m} {τ : List ℝ} (h : Exact p τ) {V : Matrix n n ℂ}
    (hV : V ∈ Matrix.unitaryGroup n ℂ) (W : Matrix m m ℂ) {a : ℝ} (e : ℝ) (ha : a ≠ 0) (u : List (Fin p.ctrl.length → ℝ))
    (hu : u.length = τ.length) (costF costF' : List (Matrix n m ℂ) → Except PyErr ℝ)
    (hlast : ∀ f f' (E : Matrix n m ℂ) (φ : ℂ), ‖φ‖ = 1 → last f = .ok E → last f' = .ok (φ • (V * E * W)) → costF f = costF' f') :
    (costOn costF p.bare.cfg (fresh p.bare.cfg τ (u.map fun r => List.ofFn r))).1 =
      (costOn costF' (p.rewritten V W a e).bare.cfg (fresh (p.rewritten V W a e).bare.cfg (τ.map (· / a))
        (u.map fun r => List.ofFn r))).1 := by
  obtain ⟨f, f', g2, g3, g4, g5, g6⟩ := c104_forward p τ ⟨h.ctrl, h.drift, h.steps, h.stable, Or.inl ⟨h.method, h.expm⟩⟩ V hV W a e ha
    (u.map fun r => List.ofFn r) (by simpa using hu) (by
      intro row hrow
      obtain ⟨v, -, rfl⟩ := List.mem_map.mp hrow
      simp)
  obtain ⟨E, k1, k2⟩ := g6 τ.length le_rfl
  have l1 : last f = .ok E := by
    unfold last
    rw [List.getLast?_eq_getElem?, g4, Nat.add_sub_cancel, k1]
  have l2 := k2
  have l3 : last f' = .ok (Complex.exp (-Complex.I * (e * ((τ.take τ.length).map (· / a)).sum : ℝ)) • (V * E * W)) := by
    unfold last
    rw [List.getLast?_eq_getElem?, g5, Nat.add_sub_cancel, k2]
  unfold costOn
  cases r1 : readFwd p.bare.cfg (fresh p.bare.cfg τ (u.map fun r => List.ofFn r)) with
  | mk a1 s1 =>
  cases r2 : readFwd (p.rewritten V W a e).bare.cfg (fresh (p.rewritten V W a e).bare.cfg (τ.map (· / a))
        (u.map fun r => List.ofFn r)) with
  | mk a2 s2 =>
  rw [r1] at g2
  rw [r2] at g3
  simp only at g2 g3
  subst g2 g3
  refine hlast _ _ _ _ ?_ l1 l3
  rw [Complex.norm_exp]
  simp

theorem trace_rewritten {V : Matrix n n ℂ} (hV : V ∈ Matrix.unitaryGroup n ℂ) (T E : Matrix n n ℂ) (φ : ℂ) :
    ((V * T * Vᴴ)ᴴ * (φ • (V * E * Vᴴ))).trace = φ * (Tᴴ * E).trace := by
  have hV2 : Vᴴ * V = 1 := Matrix.mem_unitaryGroup_iff'.mp hV
  have : (V * T * Vᴴ)ᴴ * (φ • (V * E * Vᴴ)) = φ • (V * (Tᴴ * E) * Vᴴ) := by
    rw [Matrix.conjTranspose_mul, Matrix.conjTranspose_mul, Matrix.conjTranspose_conjTranspose, Matrix.mul_smul]
    congr 1
    simp only [Matrix.mul_assoc]
    congr 2
    rw [← Matrix.mul_assoc Vᴴ, hV2, Matrix.one_mul]
  rw [this, Matrix.trace_smul, Matrix.mul_assoc, Matrix.trace_mul_comm, Matrix.mul_assoc, hV2, Matrix.mul_one, smul_eq_mul]

theorem norm_phase {φ : ℂ} (h : ‖φ‖ = 1) (x : ℂ) : ‖φ * x‖ = ‖x‖ := by rw [norm_mul, h, one_mul]

theorem entFid_rewritten {V : Matrix n n ℂ} (hV : V ∈ Matrix.unitaryGroup n ℂ) {φ : ℂ} (hφ : ‖φ‖ = 1) (cl : Closest)
    (T E : Matrix n n ℂ) (mcu : Bool) : entFid cl none T E mcu = entFid cl none (V * T * Vᴴ) (φ • (V * E * Vᴴ)) mcu := by
  have h : ‖(Tᴴ * E).trace‖ = ‖((V * T * Vᴴ)ᴴ * (φ • (V * E * Vᴴ))).trace‖ := by rw [trace_rewritten hV, norm_phase hφ]
  exact congrArg (fun z => z ^ 2 / dim (n := n) none / dim (n := n) none) h

theorem entFid_phase {φ : ℂ} (hφ : ‖φ‖ = 1) (cl : Closest) (cs : Option (List n)) (T : Matrix (CompIdx cs) (CompIdx cs) ℂ)
    (E : Matrix n n ℂ) : entFid cl cs T E false = entFid cl cs T (φ • E) false := by
  have : truncTo cl cs false (φ • E) = φ • truncTo cl cs false E := by cases cs <;> rfl
  unfold entFid
  rw [this, Matrix.mul_smul, Matrix.trace_smul, smul_eq_mul, norm_phase hφ]

theorem sq_add_sq (z : ℂ) : z.re ^ 2 + z.im ^ 2 = ‖z‖ ^ 2 := by
  rw [Complex.sq_norm, Complex.normSq_apply]; ring

theorem stateFid_rewritten {V : Matrix n n ℂ} (hV : V ∈ Matrix.unitaryGroup n ℂ) {φ : ℂ} (hφ : ‖φ‖ = 1) (T : Matrix (Fin 1) n ℂ)
    (E : Matrix n (Fin 1) ℂ) (r : Bool) :
    stateFid (b := 1) none T E r = stateFid (n := n) (b := 1) none (T * Vᴴ) (φ • (V * E * (1 : Matrix (Fin 1) (Fin 1) ℂ))) r := by
  have hV2 : Vᴴ * V = 1 := Matrix.mem_unitaryGroup_iff'.mp hV
  have hsp : (T * Vᴴ * (φ • (V * E * (1 : Matrix (Fin 1) (Fin 1) ℂ))) : Matrix (Fin 1) (Fin 1) ℂ) = φ • (T * E) := by
    rw [Matrix.mul_one, Matrix.mul_smul, ← Matrix.mul_assoc, Matrix.mul_assoc T, hV2, Matrix.mul_one]
  have h : ‖(T * E) 0 0‖ = ‖(T * Vᴴ * (φ • (V * E * (1 : Matrix (Fin 1) (Fin 1) ℂ))) : Matrix (Fin 1) (Fin 1) ℂ) 0 0‖ := by
    rw [hsp, Matrix.smul_apply, smul_eq_mul, norm_phase hφ]
  have e1 : stateFid (b := 1) none T E r = .ok (‖(T * E) 0 0‖ ^ 2) := by rw [← sq_add_sq]; rfl
  have e2 : stateFid (n := n) (b := 1) none (T * Vᴴ) (φ • (V * E * (1 : Matrix (Fin 1) (Fin 1) ℂ))) r =
      .ok (‖(T * Vᴴ * (φ • (V * E * (1 : Matrix (Fin 1) (Fin 1) ℂ))) : Matrix (Fin 1) (Fin 1) ℂ) 0 0‖ ^ 2) := by
    rw [← sq_add_sq]; rfl
  rw [e1, e2, h]

theorem leak_phase {φ : ℂ} (hφ : ‖φ‖ = 1) (l : List n) (E : Matrix n n ℂ) :
    (((φ • E).submatrix l.get l.get)ᴴ * (φ • E).submatrix l.get l.get).trace.re =
      ((E.submatrix l.get l.get)ᴴ * E.submatrix l.get l.get).trace.re := by
  have h1 : (φ • E).submatrix l.get l.get = φ • E.submatrix l.get l.get := rfl
  have h2 : φ * star φ = 1 := by
    have := Complex.mul_conj φ
    rw [Complex.normSq_eq_norm_sq, hφ] at this
    simpa using this
  rw [h1, Matrix.conjTranspose_smul, Matrix.smul_mul, Matrix.mul_smul, smul_smul, mul_comm, h2, one_smul]

theorem SameSystem.costs_eq {N : Nat} {s s' s₁ s₁' : SolverObj q} {F F' : CostFn q} (h : Similar N s s') (hF : SameSystem s F F')
    (y : Transfer.Pulse ℝ q) (hy : y.length = N) (h1 : s.setPars y = .ok s₁) (h2 : s'.setPars y = .ok s₁') :
    F.costs s₁ = F'.costs s₁' := by
  obtain ⟨tf, x, -, hx, hl, rfl⟩ := setPars_ok h.left.coherent h1
  obtain ⟨tf', x', -, hx', hl', rfl⟩ := setPars_ok h.right.coherent h2
  obtain ⟨c, t, t', am, k, rfl, rfl, hrun⟩ := h.obj
  have hxx : x' = x := by
    have : t'.run y = t.run y := hrun y hy
    rw [show t'.run y = .ok x' from hx', show t.run y = .ok x from hx] at this
    simpa using this
  subst hxx
  simp only [SolverObj.withAmps]
  simp only at hl
  generalize am.call x' = u at hl
  cases hF with
  | operation p τ hp hc hN V hV a e ha cl T mcu i label hF hF' =>
    simp only at hc hN
    subst hc hN hF hF'
    refine congrArg (Except.map fun x : ℝ => [x]) (solverCost_rewritten hp hV Vᴴ e ha u hl _ _ ?_)
    intro f f' E φ hφ l1 l2
    simp only [opCosts, l1, l2, bind, Except.bind, pure, Except.pure]
    exact congrArg (fun z => Except.ok (1 - z)) (entFid_rewritten hV hφ cl T E mcu)
  | subspace p τ hp hc hN a e ha cl cs hcs T i label hF hF' =>
    simp only at hc hN
    subst hc hN hF hF'
    refine congrArg (Except.map fun x : ℝ => [x]) (solverCost_rewritten hp (Submonoid.one_mem _) 1 e ha u hl _ _ ?_)
    intro f f' E φ hφ l1 l2
    simp only [opCosts, l1, l2, bind, Except.bind, pure, Except.pure, Matrix.mul_one, Matrix.one_mul]
    exact congrArg (fun z => Except.ok (1 - z)) (entFid_phase hφ cl cs T E)
  | state p τ hp hc hN V hV a e ha T r i label hF hF' =>
    simp only at hc hN
    subst hc hN hF hF'
    refine congrArg (Except.map fun x : ℝ => [x]) (solverCost_rewritten hp hV 1 e ha u hl _ _ ?_)
    intro f f' E φ hφ l1 l2
    simp only [stateCosts, l1, l2, bind, Except.bind, pure, Except.pure]
    have := stateFid_rewritten hV hφ T E r
    exact congrArg (fun z : Except PyErr ℝ => Except.bind z fun v => Except.ok (1 - v)) this
  | leakage p τ hp hc hN hdH hcH hi a e ha l hll hne i label hF hF' =>
    simp only at hc hN
    subst hc hN hF hF'
    refine congrArg (Except.map fun x : ℝ => [x]) (solverCost_rewritten hp (Submonoid.one_mem _) 1 e ha u hl _ _ ?_)
    intro f f' E φ hφ l1 l2
    simp only [leakCosts, l1, l2, bind, Except.bind, pure, Except.pure, Matrix.mul_one, Matrix.one_mul]
    rw [leak_phase hφ]

theorem SameExperiment.assembled {N : Nat} {sim sim' : Sim q} (h : SameExperiment N sim sim') :
    (∀ s ∈ sim.solvers, Assembled s N) ∧ ∀ s ∈ sim'.solvers, Assembled s N := by
  have := h.solvers
  clear h
  generalize sim.solvers = S at *
  generalize sim'.solvers = S' at *
  induction this with
  | nil => simp
  | cons hs _ ih =>
    refine ⟨fun s hm => ?_, fun s hm => ?_⟩ <;> rcases List.mem_cons.mp hm with rfl | hm
    · exact hs.left
    · exact ih.1 s hm
    · exact hs.right
    · exact ih.2 s hm

theorem SameExperiment.infidelity {N : Nat} {sim sim' : Sim q} (h : SameExperiment N sim sim') :
    (∀ F ∈ sim.costFuncs, ∃ s, sim.solvers[F.solver]? = some s ∧ Infidelity F s) ∧
    ∀ F ∈ sim'.costFuncs, ∃ s, sim'.solvers[F.solver]? = some s ∧ Infidelity F s := by
  have := h.costs
  clear h
  generalize sim.costFuncs = S at *
  generalize sim'.costFuncs = S' at *
  induction this with
  | nil => simp
  | cons hs _ ih =>
    obtain ⟨-, s, s', e1, e2, e3, e4⟩ := hs
    obtain ⟨a1, a2⟩ := e4.infidelity e3
    refine ⟨fun s hs => ?_, fun s hs => ?_⟩ <;> rcases List.mem_cons.mp hs with rfl | hs
    · exact ⟨_, e1, a1⟩
    · exact ih.1 s hs
    · exact ⟨_, e2, a2⟩
    · exact ih.2 s hs

theorem costLoop_similar {N : Nat} {S S' ss ss' : List (SolverObj q)} (y : Transfer.Pulse ℝ q) (hy : y.length = N)
    (h1 : Sim.setSolvers S y = .ok ss) (h2 : Sim.setSolvers S' y = .ok ss') {Fs Fs' : List (CostFn q)}
    (h : List.Forall₂ (fun F F' => F.solver = F'.solver ∧ ∃ s s', S[F.solver]? = some s ∧ S'[F'.solver]? = some s' ∧
      Similar N s s' ∧ SameSystem s F F') Fs Fs') : Sim.costLoop ss Fs = Sim.costLoop ss' Fs' := by
  induction h with
  | nil => rfl
  | cons hF _ ih =>
    obtain ⟨-, s, s', e1, e2, e3, e4⟩ := hF
    obtain ⟨s₁, g1, g2⟩ := setSolvers_get' h1 e1
    obtain ⟨s₁', g3, g4⟩ := setSolvers_get' h2 e2
    simp only [Sim.costLoop, g1, g3, bind, Except.bind, e4.costs_eq e3 y hy g2 g4, ih]

/-- **C104** Two descriptions of the same experiment, differing by the unit of energy, the basis and the zero of energy, have the
same costs for every pulse. -/
theorem c104_costs {N : Nat} (sim sim' : Sim q) (h : SameExperiment N sim sim') (y : Transfer.Pulse ℝ q) (hy : y.length = N) :
    ∃ v s s', sim.wrappedCosts (some y) = .ok (s, v) ∧ sim'.wrappedCosts (some y) = .ok (s', v) := by
  obtain ⟨hA, hA'⟩ := h.assembled
  obtain ⟨ss, hss⟩ := setSolvers_of (y := y) fun s h => by
    obtain ⟨⟨x, hx, -, hl⟩, -⟩ := (hA s h).run y hy
    exact setPars_of hx hl
  obtain ⟨ss', hss'⟩ := setSolvers_of (y := y) fun s h => by
    obtain ⟨⟨x, hx, -, hl⟩, -⟩ := (hA' s h).run y hy
    exact setPars_of hx hl
  have hloop := costLoop_similar y hy hss hss' h.costs
  obtain ⟨v, hv, hvl⟩ := costLoop_ok hA y hss sim.costFuncs h.infidelity.1
  obtain ⟨r, hr⟩ : ∃ r, Sim.concatenate0 v = .ok r := by
    cases v with
    | nil => exact absurd (List.length_eq_zero_iff.mp hvl.symm) h.nonempty
    | cons a l => exact ⟨_, rfl⟩
  refine ⟨r, { sim with solvers := ss }, { sim' with solvers := ss' }, ?_, ?_⟩
  · simp only [Sim.wrappedCosts, Sim.given, hss, bind, Except.bind, hv, hr, pure, Except.pure]
  · simp only [Sim.wrappedCosts, Sim.given, hss', bind, Except.bind, ← hloop, hv, hr, pure, Except.pure]

/-- **C104** ... and the same gradients (for pulses with at least one parameter per step). -/
theorem c104_gradient {N : Nat} (sim sim' : Sim q) (h : SameExperiment N sim sim') (hn : sim.numericJacobian = false)
    (hn' : sim'.numericJacobian = false) (hq : 0 < q) (y : Transfer.Pulse ℝ q) (hy : y.length = N) :
    ∃ J s s', sim.wrappedJac (some y) = .ok (s, J) ∧ sim'.wrappedJac (some y) = .ok (s', J) := by
  obtain ⟨hA, hA'⟩ := h.assembled
  obtain ⟨hF, hF'⟩ := h.infidelity
  have hne' : sim'.costFuncs ≠ [] := by
    intro h0
    have := h.costs.length_eq
    rw [h0] at this
    exact h.nonempty (List.length_eq_zero_iff.mp this)
  exact jac_unique hn hn' hq y (by rw [hy]; exact hA) (by rw [hy]; exact hA') h.nonempty hne' hF hF' fun z hz =>
    c104_costs sim sim' h z (hz.trans hy)

/-- `OversamplingTF` acts in the same way whatever the unit of time. -/
theorem run_scaled {b : Base ℝ} {t t' : TF ℝ q} {τ : List ℝ} {a : ℝ} (h : (TF.oversampling b : TF ℝ q).setTimes τ = .ok t)
    (h' : (TF.oversampling b : TF ℝ q).setTimes (τ.map (· / a)) = .ok t') (y : Transfer.Pulse ℝ q) (hy : y.length = τ.length) :
    t'.run y = t.run y := by
  obtain ⟨b', hb, -⟩ := TF.bind_ok (by simpa only [TF.setTimes] using h)
  obtain ⟨x, ps, pe, -, -, -, hp, -, -, -⟩ := c01_grid_length b b' τ hb
  rw [run_over h hp hy, run_over h' hp (by simpa using hy)]

/-! ### A case of C104 -/

namespace Ex104

/-- The unitary which exchanges the two states of a qubit. -/
def V : Matrix (Fin 2) (Fin 2) ℂ := !![0, 1; 1, 0]

theorem V_unitary : V ∈ Matrix.unitaryGroup (Fin 2) ℂ := by
  rw [Matrix.mem_unitaryGroup_iff, Matrix.star_eq_conjTranspose]
  ext i j; fin_cases i <;> fin_cases j <;> simp [V, Matrix.mul_apply, Fin.sum_univ_two]

/-- A simulator with one solver and a gate, a state transfer, a gate on one level and a leakage. -/
noncomputable def sim (p : SPar (Fin 2) (Fin 2)) (k : SPar (Fin 2) (Fin 1)) (p₁ : SPar (Fin 2) (Fin 2)) (τ : List ℝ) (T : Matrix (Fin 2) (Fin 2) ℂ)
    (b : Matrix (Fin 1) (Fin 2) ℂ) (tf : TF ℝ 2) : Sim 2 :=
  { solvers := [⟨2, tf, .unary Real.sin Real.cos, 4, none, none⟩]
    costFuncs := [operationCost p τ (fun _ A => A) none T false 0 "gate", stateCost k τ none b false 0 "state",
      operationCost p₁ τ (fun _ A => A) (some [0]) !![1] false 0 "level", leakageCost p₁ τ [0] 0 "leakage"]
    pulse := none, numTimes := none, numCtrl := none, numericJacobian := false }

theorem tf_exists (x : ℝ) : ∃ tf : TF ℝ 2, (TF.oversampling Ex93.base).setTimes [x, x] = .ok tf ∧ tf.base.numX = 4 := by
  obtain ⟨b, hb⟩ : ∃ b, Ex93.base.setTimes [x, x] = .ok b := by simp [Base.setTimes, Ex93.base]
  refine ⟨.oversampling b, by simp [TF.setTimes, hb, bind, Except.bind, pure, Except.pure], ?_⟩
  obtain ⟨y, ps, pe, -, -, -, hs, -, -, hX⟩ := c01_grid_length Ex93.base b [x, x] hb
  simp only [Ex93.base, specPadding, Option.some.injEq, Prod.mk.injEq] at hs
  rw [← hs.1, ← hs.2] at hX
  simpa [TF.base, Ex93.base] using hX

/-- The original description. -/
noncomputable def A (L : Lapack (Fin 2)) (t : TF ℝ 2) : Sim 2 :=
  sim (Ex93.par L) (Ex93.ket L) (Ex93.par L) [1, 1, 1, 1] !![0, 1; -1, 0] !![0, 1] t

/-- Energies three times larger, times three times shorter, the levels exchanged (for the whole gate and the state), all energies
raised by five. -/
noncomputable def B (L : Lapack (Fin 2)) (t : TF ℝ 2) : Sim 2 :=
  sim ((Ex93.par L).rewritten V Vᴴ 3 5) ((Ex93.ket L).rewritten V 1 3 5) ((Ex93.par L).rewritten 1 1 3 5)
    ([1, 1, 1, 1].map (· / 3)) (V * !![0, 1; -1, 0] * Vᴴ) ((!![0, 1] : Matrix (Fin 1) (Fin 2) ℂ) * Vᴴ) t

theorem similar {t t' : TF ℝ 2} (ht : (TF.oversampling Ex93.base).setTimes [2, 2] = .ok t) (hX : t.base.numX = 4)
    (ht' : (TF.oversampling Ex93.base).setTimes ([2, 2].map (· / (3 : ℝ))) = .ok t') (hX' : t'.base.numX = 4) :
    Similar 2 (⟨2, t, .unary Real.sin Real.cos, 4, none, none⟩ : SolverObj 2) ⟨2, t', .unary Real.sin Real.cos, 4, none, none⟩ :=
  ⟨⟨2, t, t', .unary Real.sin Real.cos, 4, rfl, rfl, fun y hy => run_scaled (a := 3) ht ht' y hy⟩,
    ⟨⟨.oversampling Ex93.base, _, trivial, ht, rfl, hX.symm⟩, fun r => Real.hasDerivAt_sin r, fun y h => by simp at h⟩,
    ⟨⟨.oversampling Ex93.base, _, trivial, ht', by simp, hX'.symm⟩, fun r => Real.hasDerivAt_sin r, fun y h => by simp at h⟩⟩

theorem ket_exact {L : Lapack (Fin 2)} (hE : L.ExpmOk) (hF : L.FrechetOk) : Exact (Ex93.ket L) [1, 1, 1, 1] :=
  ⟨by simp [Ex93.ket], rfl, by simp, rfl, rfl, hE, hF, Or.inl ⟨rfl, rfl⟩⟩

theorem pair {sim sim' : Sim 2} {F F' : CostFn 2} {s s' : SolverObj 2} (h0 : F.solver = 0) (h0' : F'.solver = 0)
    (h1 : sim.solvers[0]? = some s) (h2 : sim'.solvers[0]? = some s') (h : Similar 2 s s') (hF : SameSystem s F F') :
    F.solver = F'.solver ∧ ∃ s s', sim.solvers[F.solver]? = some s ∧ sim'.solvers[F'.solver]? = some s' ∧ Similar 2 s s' ∧
      SameSystem s F F' := by
  rw [h0, h0']
  exact ⟨rfl, s, s', h1, h2, h, hF⟩

theorem same_of {p : SPar (Fin 2) (Fin 2)} {k : SPar (Fin 2) (Fin 1)} {τ : List ℝ} (hp : Exact p τ) (hk : Exact k τ)
    (hc : 2 = p.ctrl.length) (hc' : 2 = k.ctrl.length) (hτ : 4 = τ.length) (hdH : ∀ H ∈ p.drift, H.IsHermitian)
    (hcH : ∀ H ∈ p.ctrl, H.IsHermitian) (hi : p.init ∈ Matrix.unitaryGroup (Fin 2) ℂ) {t t' : TF ℝ 2}
    (h : Similar 2 (⟨2, t, .unary Real.sin Real.cos, 4, none, none⟩ : SolverObj 2) ⟨2, t', .unary Real.sin Real.cos, 4, none, none⟩)
    (T : Matrix (Fin 2) (Fin 2) ℂ) (b : Matrix (Fin 1) (Fin 2) ℂ) {a : ℝ} (ha : a ≠ 0) (e : ℝ) :
    SameExperiment 2 (sim p k p τ T b t) (sim (p.rewritten V Vᴴ a e) (k.rewritten V 1 a e) (p.rewritten 1 1 a e)
      (τ.map (· / a)) (V * T * Vᴴ) (b * Vᴴ) t') := by
  refine ⟨.cons h .nil, .cons (pair rfl rfl rfl rfl h ?_) (.cons (pair rfl rfl rfl rfl h ?_)
    (.cons (pair rfl rfl rfl rfl h ?_) (.cons (pair rfl rfl rfl rfl h ?_) .nil))), by simp [sim]⟩
  · exact .operation p τ hp hc hτ V V_unitary a e ha _ _ false 0 "gate" rfl rfl
  · exact .state k τ hk hc' hτ V V_unitary a e ha _ false 0 "state" rfl rfl
  · exact .subspace p τ hp hc hτ a e ha _ (some [0]) (by simp) _ 0 "level" rfl rfl
  · exact .leakage p τ hp hc hτ hdH hcH hi a e ha [0] (by simp) (by simp) 0 "leakage" rfl rfl

theorem same {L : Lapack (Fin 2)} (hE : L.ExpmOk) (hF : L.FrechetOk) {t t' : TF ℝ 2}
    (h : Similar 2 (⟨2, t, .unary Real.sin Real.cos, 4, none, none⟩ : SolverObj 2) ⟨2, t', .unary Real.sin Real.cos, 4, none, none⟩) :
    SameExperiment 2 (A L t) (B L t') :=
  same_of (Ex93.par_exact hE hF) (ket_exact hE hF) rfl rfl rfl (Ex93.drift_hermitian L) (Ex93.ctrl_hermitian L)
    (Submonoid.one_mem _) h _ _ (by norm_num) _

example : ∃ (L : Lapack (Fin 2)) (t t' : TF ℝ 2) (v : List ℝ) (J : List (List (Fin 2 → ℝ))) (s s' r r' : Sim 2),
    (A L t).wrappedCosts (some [fun _ => 1, fun _ => 2]) = .ok (s, v) ∧
    (B L t').wrappedCosts (some [fun _ => 1, fun _ => 2]) = .ok (s', v) ∧
    (A L t).wrappedJac (some [fun _ => 1, fun _ => 2]) = .ok (r, J) ∧
    (B L t').wrappedJac (some [fun _ => 1, fun _ => 2]) = .ok (r', J) := by
  obtain ⟨L, -, -, hE, hF⟩ := lapack_exists (Fin 2)
  obtain ⟨t, ht, hX⟩ := tf_exists 2
  obtain ⟨t', ht', hX'⟩ := tf_exists (2 / 3)
  have h := same hE hF (similar ht hX ht' hX')
  obtain ⟨v, s, s', g1, g2⟩ := c104_costs _ _ h [fun _ => 1, fun _ => 2] rfl
  obtain ⟨J, r, r', g3, g4⟩ := c104_gradient _ _ h rfl rfl (by norm_num) [fun _ => 1, fun _ => 2] rfl
  exact ⟨L, t, t', v, J, s, s', r, r', g1, g2, g3, g4⟩

/-- A case of `c104_forward`: the last propagator after four steps carries the phase `exp(-20 i / 3)`. -/
example : ∃ (L : Lapack (Fin 2)) (f f' : List (Matrix (Fin 2) (Fin 2) ℂ)) (F : Matrix (Fin 2) (Fin 2) ℂ),
    (readFwd (Ex93.par L).bare.cfg (fresh (Ex93.par L).bare.cfg [1, 1, 1, 1] [[1, 0], [0, 1], [1, 1], [2, 3]])).1 = .ok f ∧
    (readFwd ((Ex93.par L).rewritten V Vᴴ 3 5).bare.cfg (fresh ((Ex93.par L).rewritten V Vᴴ 3 5).bare.cfg
      ([1, 1, 1, 1].map (· / 3)) [[1, 0], [0, 1], [1, 1], [2, 3]])).1 = .ok f' ∧ f[4]? = some F ∧
    f'[4]? = some (Complex.exp (-Complex.I * (20 / 3 : ℝ)) • (V * F * Vᴴ)) := by
  obtain ⟨L, -, -, hE, hF⟩ := lapack_exists (Fin 2)
  have h := Ex93.par_exact hE hF
  obtain ⟨f, f', e1, e2, -, -, e3⟩ := c104_forward (Ex93.par L) [1, 1, 1, 1] ⟨h.ctrl, h.drift, h.steps, h.stable,
    Or.inl ⟨h.method, h.expm⟩⟩ V V_unitary Vᴴ 3 5 (by norm_num) [[1, 0], [0, 1], [1, 1], [2, 3]] rfl (by
      intro row hrow
      have : (Ex93.par L).ctrl.length = 2 := rfl
      rw [this]
      simp only [List.mem_cons, List.not_mem_nil, or_false] at hrow
      rcases hrow with rfl | rfl | rfl | rfl <;> rfl)
  obtain ⟨F, g1, g2⟩ := e3 4 (le_refl _)
  refine ⟨L, f, f', F, e1, e2, g1, ?_⟩
  rw [g2]
  norm_num

end Ex104

end Verif.Sim
