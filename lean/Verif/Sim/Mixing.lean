import Verif.Sim.Composition

/-!
# C142: affine amplitude functions and control Hamiltonians

An amplitude function which combines the parameters linearly and adds constants is the same as other control Hamiltonians and another
drift.
-/

namespace Verif.Sim
open Verif Verif.Transfer Verif.Operator Verif.Solver Verif.Cost Matrix

variable {n m : Type} [Fintype n] [DecidableEq n] {q : Nat}

/-! ## Specification -/

/-- Specification: the amplitudes of one time step. -/
def mixRow {c : Nat} (A : Fin q → Fin c → ℝ) (b : Fin c → ℝ) (r : Fin q → ℝ) : Fin c → ℝ := fun l => ∑ k, r k * A k l + b l

/-- Specification: the amplitude function with its derivative, arguments of `CustomAmpFunc` (amplitude_functions.py:178-220). -/
def mixAmp {c : Nat} (A : Fin q → Fin c → ℝ) (b : Fin c → ℝ) : AmpFunc q c := .custom (fun x => x.map (mixRow A b)) fun x => x.map fun _ => A

/-- Specification: the arguments of the solver with one control per parameter, the combination of the controls it moves, and the constants
in the drift. -/
noncomputable def _root_.Verif.Solver.SPar.mixed (p : SPar n m) (A : Fin q → Fin p.ctrl.length → ℝ) (b : Fin p.ctrl.length → ℝ) : SPar n m :=
  { p with drift := p.drift.map fun H => H + ∑ l, (b l : ℂ) • p.ctrl.get l, ctrl := List.ofFn fun k : Fin q => ∑ l, (A k l : ℂ) • p.ctrl.get l }

/-! ## Lemmas -/

theorem mix_hamiltonian (ctrl : List (Matrix n n ℂ)) (A : Fin q → Fin ctrl.length → ℝ) (b : Fin ctrl.length → ℝ) (H₀ : Matrix n n ℂ) (r : Fin q → ℝ) :
    hamiltonian (H₀ + ∑ l, (b l : ℂ) • ctrl.get l) (List.ofFn fun k : Fin q => ∑ l, (A k l : ℂ) • ctrl.get l) (List.ofFn r) =
      hamiltonian H₀ ctrl (List.ofFn (mixRow A b r)) := by
  have e : ctrl = List.ofFn ctrl.get := (List.ofFn_get ctrl).symm
  have h2 : hamiltonian H₀ ctrl (List.ofFn (mixRow A b r)) = hamiltonian H₀ (List.ofFn ctrl.get) (List.ofFn (mixRow A b r)) := by rw [← e]
  rw [h2, hamiltonian_ofFn, hamiltonian_ofFn, add_assoc]
  congr 1
  simp only [mixRow, Complex.ofReal_add, add_smul, Finset.sum_add_distrib, Complex.ofReal_sum, Complex.ofReal_mul, Finset.sum_smul, Finset.smul_sum,
    smul_smul]
  rw [add_comm, Finset.sum_comm]

theorem sum_hermitian {ι : Type} (s : Finset ι) (f : ι → ℝ) (H : ι → Matrix n n ℂ) (h : ∀ i, (H i).IsHermitian) :
    (∑ i ∈ s, (f i : ℂ) • H i).IsHermitian := by
  unfold Matrix.IsHermitian
  rw [Matrix.conjTranspose_sum]
  refine Finset.sum_congr rfl fun i _ => ?_
  rw [Matrix.conjTranspose_smul, h i]
  simp

theorem Computes.mixed {p : SPar n m} {τ : List ℝ} (h : Computes p τ) (hq : 0 < q) (A : Fin q → Fin p.ctrl.length → ℝ) (b : Fin p.ctrl.length → ℝ) :
    Computes (p.mixed A b) τ := by
  have hne : (p.mixed A b).ctrl ≠ [] := by simpa [SPar.mixed] using hq.ne'
  refine ⟨hne, by simpa [SPar.mixed] using h.drift, h.steps, ?_, ?_⟩
  · rcases h.stable with h1 | ⟨h1, h2, -⟩ | h1
    · exact Or.inl h1
    · refine Or.inr (Or.inl ⟨h1, h2, fun times u t Ds hD => ?_⟩)
      have : (List.replicate times.length ((p.mixed A b).ctrl.map fun H => (-Complex.I) • H))[t]? = some Ds := hD
      rw [List.getElem?_replicate] at this
      split at this
      · simp only [Option.some.injEq] at this
        rw [← this]
        simpa using hne
      · cases this
    · exact Or.inr (Or.inr h1)
  · rcases h.method with h1 | h1
    · exact Or.inl h1
    · have hc : ∀ l : Fin p.ctrl.length, (p.ctrl.get l).IsHermitian := fun l => h1.2.2.2.2 _ (List.get_mem _ _)
      refine Or.inr ⟨h1.1, h1.2.1, h1.2.2.1, fun H hH => ?_, fun H hH => ?_⟩
      · obtain ⟨G, hG, rfl⟩ := List.mem_map.mp hH
        exact (h1.2.2.2.1 G hG).add (sum_hermitian _ _ _ hc)
      · obtain ⟨k, rfl⟩ := List.mem_ofFn.mp hH
        exact sum_hermitian _ _ _ hc

theorem exact_mixed {p : SPar n m} {τ : List ℝ} (h : Exact p τ) (hq : 0 < q) (A : Fin q → Fin p.ctrl.length → ℝ) (b : Fin p.ctrl.length → ℝ) :
    Exact (p.mixed A b) τ := by
  have hc : Computes p τ := ⟨h.ctrl, h.drift, h.steps, h.stable, Or.inl ⟨h.method, h.expm⟩⟩
  have hc' := hc.mixed hq A b
  exact ⟨hc'.ctrl, hc'.drift, hc'.steps, h.method, h.approx, h.expm, h.frechet, hc'.stable⟩

theorem mixAmp_correct {c : Nat} (A : Fin q → Fin c → ℝ) (b : Fin c → ℝ) : (mixAmp A b).Correct := by
  refine ⟨fun _ _ => mixRow A b, fun x => (List.ext_getElem (by simp) fun i h1 h2 => by simp), fun x => ⟨by simp, fun t ht r r' h₀ hr hd j => ?_⟩⟩
  have h1 : rowAt (x.map fun _ => A) t = A := by
    rw [rowAt_lt _ _ (by simpa using ht)]
    simp
  rw [h1]
  have := (HasDerivAt.fun_sum (u := Finset.univ) fun k _ => (hd k).mul_const (A k j)).add_const (b j)
  refine this.congr_deriv (Finset.sum_congr rfl fun k _ => mul_comm _ _)

/-! ## C142 -/

/-- **C142** The forward propagators with the affine amplitude function are those of the solver with the combined Hamiltonians. -/
theorem c142_forward (p : SPar n m) (τ : List ℝ) (h : Computes p τ) (hq : 0 < q) (A : Fin q → Fin p.ctrl.length → ℝ) (b : Fin p.ctrl.length → ℝ)
    (x : Transfer.Pulse ℝ q) (hx : x.length = τ.length) :
    ∃ f, (readFwd p.bare.cfg (fresh p.bare.cfg τ (((mixAmp A b).call x).map fun r => List.ofFn r))).1 = .ok f ∧
      (readFwd (p.mixed A b).bare.cfg (fresh (p.mixed A b).bare.cfg τ (x.map fun r => List.ofFn r))).1 = .ok f := by
  have h' := h.mixed hq A b
  have hcall : (mixAmp A b).call x = x.map (mixRow A b) := rfl
  rw [hcall, List.map_map]
  obtain ⟨f, e1, e2⟩ := h.fwd (x.map ((fun r => List.ofFn r) ∘ mixRow A b)) (by simpa using hx) (by
    intro row hr
    obtain ⟨r, -, rfl⟩ := List.mem_map.mp hr
    simp)
  obtain ⟨f', e1', e2'⟩ := h'.fwd (x.map fun r => List.ofFn r) (by simpa using hx) (by
    intro row hr
    obtain ⟨r, -, rfl⟩ := List.mem_map.mp hr
    simp [SPar.mixed])
  have hs : (p.mixed A b).bare.steps τ (x.map fun r => List.ofFn r) = p.bare.steps τ (x.map ((fun r => List.ofFn r) ∘ mixRow A b)) := by
    rw [h.steps_eq _ (by simpa using hx), h'.steps_eq _ (by simpa using hx)]
    refine List.ext_getElem (by simp [SPar.mixed]) fun i h1 h2 => ?_
    simp only [SPar.mixed, List.getElem_zipWith, List.getElem_zip, List.getElem_map, Function.comp]
    rw [mix_hamiltonian]
  rw [hs] at e2'
  have := forward_unique e2 e2'
  subst this
  exact ⟨f, e1, e1'⟩

/-- Specification: two new solver objects, the first with the affine amplitude function, the second with the default one. -/
structure Mixes (N : Nat) {c : Nat} (A : Fin q → Fin c → ℝ) (b : Fin c → ℝ) (s s' : SolverObj q) : Prop where
  obj : ∃ (t : TF ℝ q) (k : Nat), s = ⟨c, t, mixAmp A b, k, none, none⟩ ∧ s' = ⟨q, t, .identity, k, none, none⟩
  left : ∃ (t₀ : TF ℝ q) (ys : List ℝ), TF.Usable t₀ ∧ t₀.setTimes ys = .ok s.tf ∧ ys.length = N ∧ s.nTimes = s.tf.base.numX

/-- Specification: the same infidelity for both. -/
inductive MixedSystem {c : Nat} (A : Fin q → Fin c → ℝ) (b : Fin c → ℝ) (k : Nat) (F F' : CostFn q) : Prop
  | operation {n : Type} [Fintype n] [DecidableEq n] (p : SPar n n) (τ : List ℝ) (h : Exact p τ) (hc : c = p.ctrl.length)
      (hN : k = τ.length) (cl : Closest) (cs : Option (List n)) (hcs : cs ≠ some []) (mcu : Bool) (hm : mcu = false ∨ cs = none)
      (T : Matrix (CompIdx cs) (CompIdx cs) ℂ) (i : Nat) (label : String) (hF : F = operationCost p τ cl cs T mcu i label)
      (hF' : F' = operationCost (p.mixed (fun k l => A k (Fin.cast hc.symm l)) fun l => b (Fin.cast hc.symm l)) τ cl cs T mcu i label)
  | state {n : Type} [Fintype n] [DecidableEq n] (p : SPar n (Fin 1)) (τ : List ℝ) (h : Exact p τ) (hc : c = p.ctrl.length)
      (hN : k = τ.length) (cs : Option (List n)) (hcs : cs ≠ some []) (T : Matrix (Fin 1) (CompIdx cs) ℂ) (r : Bool) (i : Nat) (label : String)
      (hF : F = stateCost p τ cs T r i label)
      (hF' : F' = stateCost (p.mixed (fun k l => A k (Fin.cast hc.symm l)) fun l => b (Fin.cast hc.symm l)) τ cs T r i label)
  | leakage {n : Type} [Fintype n] [DecidableEq n] (p : SPar n n) (τ : List ℝ) (h : Exact p τ) (hc : c = p.ctrl.length)
      (hN : k = τ.length) (hdH : ∀ H ∈ p.drift, H.IsHermitian) (hcH : ∀ H ∈ p.ctrl, H.IsHermitian)
      (hi : p.init ∈ Matrix.unitaryGroup n ℂ) (l : List n) (hl : l.Nodup) (hne : l ≠ []) (i : Nat) (label : String)
      (hF : F = leakageCost p τ l i label)
      (hF' : F' = leakageCost (p.mixed (fun k l => A k (Fin.cast hc.symm l)) fun l => b (Fin.cast hc.symm l)) τ l i label)

/-- Specification: simulators with the amplitude functions and with the combined Hamiltonians. -/
structure SameMixture (N : Nat) (sim sim' : Sim q) : Prop where
  solvers : List.Forall₂ (fun s s' => ∃ (c : Nat) (A : Fin q → Fin c → ℝ) (b : Fin c → ℝ), Mixes N A b s s') sim.solvers sim'.solvers
  costs : List.Forall₂ (fun F F' => F.solver = F'.solver ∧ ∃ (s s' : SolverObj q) (c : Nat) (A : Fin q → Fin c → ℝ) (b : Fin c → ℝ),
    sim.solvers[F.solver]? = some s ∧ sim'.solvers[F'.solver]? = some s' ∧ Mixes N A b s s' ∧ MixedSystem A b s.nTimes F F') sim.costFuncs sim'.costFuncs
  nonempty : sim.costFuncs ≠ []

theorem Mixes.assembled {N : Nat} {c : Nat} {A : Fin q → Fin c → ℝ} {b : Fin c → ℝ} {s s' : SolverObj q} (h : Mixes N A b s s') :
    Assembled s N ∧ Assembled s' N := by
  obtain ⟨⟨t, k, rfl, rfl⟩, hl⟩ := h
  exact ⟨⟨hl, mixAmp_correct A b, fun y h => by simp at h⟩, ⟨hl, trivial, fun y h => by simp at h⟩⟩

theorem MixedSystem.infidelity {N c : Nat} (hq : 0 < q) {A : Fin q → Fin c → ℝ} {b : Fin c → ℝ} {s s' : SolverObj q} {F F' : CostFn q}
    (h : Mixes N A b s s') (hF : MixedSystem A b s.nTimes F F') : Infidelity F s ∧ Infidelity F' s' := by
  obtain ⟨⟨t, k, rfl, rfl⟩, -⟩ := h
  cases hF with
  | operation p τ h hc hN cl cs hcs mcu hm T i label hF hF' =>
    exact ⟨.operation p τ h hc hN cl cs hcs mcu hm T i label hF,
      .operation _ τ (exact_mixed h hq _ _) (by simp [SPar.mixed]) hN cl cs hcs mcu hm T i label hF'⟩
  | state p τ h hc hN cs hcs T r i label hF hF' =>
    exact ⟨.state p τ h hc hN cs hcs T r i label hF,
      .state _ τ (exact_mixed h hq _ _) (by simp [SPar.mixed]) hN cs hcs T r i label hF'⟩
  | leakage p τ h hc hN hdH hcH hi l hl hne i label hF hF' =>
    have hg : ∀ l : Fin p.ctrl.length, (p.ctrl.get l).IsHermitian := fun l => hcH _ (List.get_mem _ _)
    refine ⟨.leakage p τ h hc hN hdH hcH hi l hl hne i label hF,
      .leakage _ τ (exact_mixed h hq _ _) (by simp [SPar.mixed]) hN ?_ ?_ hi l hl hne i label hF'⟩
    · intro H hH
      obtain ⟨G, hG, rfl⟩ := List.mem_map.mp hH
      exact (hdH G hG).add (sum_hermitian _ _ _ hg)
    · intro H hH
      obtain ⟨k, rfl⟩ := List.mem_ofFn.mp hH
      exact sum_hermitian _ _ _ hg

theorem solverCost_mixed (hq : 0 < q) {p : SPar n m} {τ : List ℝ} (h : Exact p τ) (A : Fin q → Fin p.ctrl.length → ℝ) (b : Fin p.ctrl.length → ℝ)
    (x : Transfer.Pulse ℝ q) (hx : x.length = τ.length) (costF : List (Matrix n m ℂ) → Except PyErr ℝ) :
    (costOn costF p.bare.cfg (fresh p.bare.cfg τ (((mixAmp A b).call x).map fun r => List.ofFn r))).1 =
      (costOn costF (p.mixed A b).bare.cfg (fresh (p.mixed A b).bare.cfg τ (x.map fun r => List.ofFn r))).1 := by
  obtain ⟨f, g1, g2⟩ := c142_forward p τ ⟨h.ctrl, h.drift, h.steps, h.stable, Or.inl ⟨h.method, h.expm⟩⟩ hq A b x hx
  unfold costOn
  rcases r1 : readFwd p.bare.cfg (fresh p.bare.cfg τ (((mixAmp A b).call x).map fun r => List.ofFn r)) with ⟨a1, s1⟩
  rcases r2 : readFwd (p.mixed A b).bare.cfg (fresh (p.mixed A b).bare.cfg τ (x.map fun r => List.ofFn r)) with ⟨a2, s2⟩
  rw [r1] at g1
  rw [r2] at g2
  simp only at g1 g2
  subst g1 g2
  rfl

theorem MixedSystem.costs_eq {N c : Nat} (hq : 0 < q) {A : Fin q → Fin c → ℝ} {b : Fin c → ℝ} {s s' s₁ s₁' : SolverObj q} {F F' : CostFn q}
    (h : Mixes N A b s s') (hF : MixedSystem A b s.nTimes F F') (y : Transfer.Pulse ℝ q) (h1 : s.setPars y = .ok s₁)
    (h2 : s'.setPars y = .ok s₁') : F.costs s₁ = F'.costs s₁' := by
  obtain ⟨tf, x, -, hx, hl, rfl⟩ := setPars_ok h.assembled.1.coherent h1
  obtain ⟨tf', x', -, hx', hl', rfl⟩ := setPars_ok h.assembled.2.coherent h2
  obtain ⟨⟨t, k, rfl, rfl⟩, -⟩ := h
  have hxx : x' = x := by
    have : t.run y = .ok x' := hx'
    rw [show t.run y = .ok x from hx] at this
    simpa using this.symm
  subst hxx
  simp only [SolverObj.withAmps]
  simp only at hl hl'
  cases hF with
  | operation p τ hp hc hN cl cs hcs mcu hm T i label hF hF' =>
    simp only at hc hN
    subst hc hN hF hF'
    exact congrArg (Except.map fun x : ℝ => [x]) (solverCost_mixed hq hp A b x' hl' _)
  | state p τ hp hc hN cs hcs T r i label hF hF' =>
    simp only at hc hN
    subst hc hN hF hF'
    exact congrArg (Except.map fun x : ℝ => [x]) (solverCost_mixed hq hp A b x' hl' _)
  | leakage p τ hp hc hN hdH hcH hi l hll hne i label hF hF' =>
    simp only at hc hN
    subst hc hN hF hF'
    exact congrArg (Except.map fun x : ℝ => [x]) (solverCost_mixed hq hp A b x' hl' _)

theorem SameMixture.assembled {N : Nat} {sim sim' : Sim q} (h : SameMixture N sim sim') :
    (∀ s ∈ sim.solvers, Assembled s N) ∧ ∀ s ∈ sim'.solvers, Assembled s N := by
  have := h.solvers
  clear h
  generalize sim.solvers = S at *
  generalize sim'.solvers = S' at *
  induction this with
  | nil => simp
  | cons hs _ ih =>
    obtain ⟨c, A, b, hs⟩ := hs
    refine ⟨fun s hm => ?_, fun s hm => ?_⟩ <;> rcases List.mem_cons.mp hm with rfl | hm
    · exact hs.assembled.1
    · exact ih.1 s hm
    · exact hs.assembled.2
    · exact ih.2 s hm

theorem SameMixture.infidelity {N : Nat} (hq : 0 < q) {sim sim' : Sim q} (h : SameMixture N sim sim') :
    (∀ F ∈ sim.costFuncs, ∃ s, sim.solvers[F.solver]? = some s ∧ Infidelity F s) ∧
    ∀ F ∈ sim'.costFuncs, ∃ s, sim'.solvers[F.solver]? = some s ∧ Infidelity F s := by
  have := h.costs
  clear h
  generalize sim.costFuncs = S at *
  generalize sim'.costFuncs = S' at *
  induction this with
  | nil => simp
  | cons hs _ ih =>
    obtain ⟨-, s, s', c, A, b, e1, e2, e3, e4⟩ := hs
    obtain ⟨a1, a2⟩ := e4.infidelity hq e3
    refine ⟨fun s hs => ?_, fun s hs => ?_⟩ <;> rcases List.mem_cons.mp hs with rfl | hs
    · exact ⟨_, e1, a1⟩
    · exact ih.1 s hs
    · exact ⟨_, e2, a2⟩
    · exact ih.2 s hs

theorem costLoop_mixed {N : Nat} (hq : 0 < q) {S S' ss ss' : List (SolverObj q)} (y : Transfer.Pulse ℝ q)
    (h1 : Sim.setSolvers S y = .ok ss) (h2 : Sim.setSolvers S' y = .ok ss') {Fs Fs' : List (CostFn q)}
    (h : List.Forall₂ (fun F F' => F.solver = F'.solver ∧ ∃ (s s' : SolverObj q) (c : Nat) (A : Fin q → Fin c → ℝ) (b : Fin c → ℝ),
      S[F.solver]? = some s ∧ S'[F'.solver]? = some s' ∧ Mixes N A b s s' ∧ MixedSystem A b s.nTimes F F') Fs Fs') :
    Sim.costLoop ss Fs = Sim.costLoop ss' Fs' := by
  induction h with
  | nil => rfl
  | cons hF _ ih =>
    obtain ⟨-, s, s', c, A, b, e1, e2, e3, e4⟩ := hF
    obtain ⟨s₁, g1, g2⟩ := setSolvers_get' h1 e1
    obtain ⟨s₁', g3, g4⟩ := setSolvers_get' h2 e2
    simp only [Sim.costLoop, g1, g3, bind, Except.bind, e4.costs_eq hq e3 y g2 g4, ih]

/-- **C142** A simulator whose solvers combine the parameters by affine amplitude functions has the same costs as the simulator with the
combined Hamiltonians, for every pulse. -/
theorem c142_costs {N : Nat} (hq : 0 < q) (sim sim' : Sim q) (h : SameMixture N sim sim') (y : Transfer.Pulse ℝ q) (hy : y.length = N) :
    ∃ v s s', sim.wrappedCosts (some y) = .ok (s, v) ∧ sim'.wrappedCosts (some y) = .ok (s', v) := by
  obtain ⟨hA, hA'⟩ := h.assembled
  obtain ⟨ss, hss⟩ := setSolvers_of (y := y) fun s h => by
    obtain ⟨⟨x, hx, -, hl⟩, -⟩ := (hA s h).run y hy
    exact setPars_of hx hl
  obtain ⟨ss', hss'⟩ := setSolvers_of (y := y) fun s h => by
    obtain ⟨⟨x, hx, -, hl⟩, -⟩ := (hA' s h).run y hy
    exact setPars_of hx hl
  have hloop := costLoop_mixed hq y hss hss' h.costs
  obtain ⟨v, hv, hvl⟩ := costLoop_ok hA y hss sim.costFuncs (h.infidelity hq).1
  obtain ⟨r, hr⟩ : ∃ r, Sim.concatenate0 v = .ok r := by
    cases v with
    | nil => exact absurd (List.length_eq_zero_iff.mp hvl.symm) h.nonempty
    | cons a l => exact ⟨_, rfl⟩
  refine ⟨r, { sim with solvers := ss }, { sim' with solvers := ss' }, ?_, ?_⟩
  · simp only [Sim.wrappedCosts, Sim.given, hss, bind, Except.bind, hv, hr, pure, Except.pure]
  · simp only [Sim.wrappedCosts, Sim.given, hss', bind, Except.bind, ← hloop, hv, hr, pure, Except.pure]

/-- **C142** ... and the same gradients. -/
theorem c142_gradient {N : Nat} (hq : 0 < q) (sim sim' : Sim q) (h : SameMixture N sim sim') (hn : sim.numericJacobian = false)
    (hn' : sim'.numericJacobian = false) (y : Transfer.Pulse ℝ q) (hy : y.length = N) :
    ∃ J s s', sim.wrappedJac (some y) = .ok (s, J) ∧ sim'.wrappedJac (some y) = .ok (s', J) := by
  obtain ⟨hA, hA'⟩ := h.assembled
  obtain ⟨hF, hF'⟩ := h.infidelity hq
  have hne' : sim'.costFuncs ≠ [] := by
    intro h0
    have := h.costs.length_eq
    rw [h0] at this
    exact h.nonempty (List.length_eq_zero_iff.mp this)
  exact jac_unique hn hn' hq y (by rw [hy]; exact hA) (by rw [hy]; exact hA') h.nonempty hne' hF hF' fun z hz =>
    c142_costs hq sim sim' h z (hz.trans hy)

/-! ### A case of C142 -/

namespace Ex142

/-- One parameter moves the first control up and the second down around the amplitudes 1 and 2, another moves the second only. -/
def A : Fin 2 → Fin 2 → ℝ := ![![1, -1], ![0, 3]]

def b : Fin 2 → ℝ := ![1, 2]

/-- With the amplitude function. -/
noncomputable def left (L : Lapack (Fin 2)) (tf : TF ℝ 2) : Sim 2 :=
  { solvers := [⟨2, tf, mixAmp A b, 4, none, none⟩]
    costFuncs := [operationCost (Ex93.par L) [1, 1, 1, 1] (fun _ A => A) none !![0, 1; -1, 0] false 0 "gate"]
    pulse := none, numTimes := none, numCtrl := none, numericJacobian := false }

/-- With the combined Hamiltonians. -/
noncomputable def right (L : Lapack (Fin 2)) (tf : TF ℝ 2) : Sim 2 :=
  { solvers := [⟨2, tf, .identity, 4, none, none⟩]
    costFuncs := [operationCost ((Ex93.par L).mixed A b) [1, 1, 1, 1] (fun _ A => A) none !![0, 1; -1, 0] false 0 "gate"]
    pulse := none, numTimes := none, numCtrl := none, numericJacobian := false }

example : ∃ (L : Lapack (Fin 2)) (t : TF ℝ 2) (v : List ℝ) (J : List (List (Fin 2 → ℝ))) (s s' r r' : Sim 2),
    (left L t).wrappedCosts (some [fun _ => 1, fun _ => 2]) = .ok (s, v) ∧
    (right L t).wrappedCosts (some [fun _ => 1, fun _ => 2]) = .ok (s', v) ∧
    (left L t).wrappedJac (some [fun _ => 1, fun _ => 2]) = .ok (r, J) ∧
    (right L t).wrappedJac (some [fun _ => 1, fun _ => 2]) = .ok (r', J) := by
  obtain ⟨L, -, -, hE, hF⟩ := lapack_exists (Fin 2)
  obtain ⟨t, ht, hX⟩ := Ex104.tf_exists 2
  have hm : Mixes 2 A b (⟨2, t, mixAmp A b, 4, none, none⟩ : SolverObj 2) ⟨2, t, .identity, 4, none, none⟩ :=
    ⟨⟨t, 4, rfl, rfl⟩, .oversampling Ex93.base, _, trivial, ht, rfl, hX.symm⟩
  have h : SameMixture 2 (left L t) (right L t) := by
    refine ⟨.cons ⟨2, A, b, hm⟩ .nil, .cons ⟨rfl, _, _, 2, A, b, rfl, rfl, hm, ?_⟩ .nil, by simp [left]⟩
    exact .operation (Ex93.par L) _ (Ex93.par_exact hE hF) rfl rfl _ none (by simp) false (Or.inr rfl) _ 0 "gate" rfl rfl
  obtain ⟨v, s, s', g1, g2⟩ := c142_costs (by norm_num) _ _ h [fun _ => 1, fun _ => 2] rfl
  obtain ⟨J, r, r', g3, g4⟩ := c142_gradient (by norm_num) _ _ h rfl rfl [fun _ => 1, fun _ => 2] rfl
  exact ⟨L, t, v, J, s, s', r, r', g1, g2, g3, g4⟩

end Ex142

end Verif.Sim
