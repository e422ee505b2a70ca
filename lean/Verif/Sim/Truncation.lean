import Verif.Sim.Limits
import Verif.Sim.Mixing
import Verif.Cost.State

/-!
# C144: levels left out of the simulation

The Hamiltonians are restricted with `DenseOperator.truncate_to_subspace` (matrix.py:1261-1303) to the computational states before
the solver is created, instead of passing `computational_states` to the cost function.
-/

namespace Verif.Sim
open Verif Verif.Transfer Verif.Operator Verif.Solver Verif.Cost Matrix

variable {n m k : Type} [Fintype n] [DecidableEq n] {q : Nat}

/-! ## Specification -/

/-- No matrix element leads from the states of `l` to another one. -/
def Closed {m : Type} (l : List n) (c : m → Prop) (H : Matrix n m ℂ) : Prop := ∀ i, c i → ∀ j, j ∉ l → H j i = 0

/-- The solver of the smaller system: all Hamiltonians are truncated. -/
structure LeavesOut (l : List n) (p : SPar n m) (r : SPar (Fin l.length) k) : Prop where
  drift : r.drift = p.drift.map fun H => H.submatrix l.get l.get
  ctrl : r.ctrl = p.ctrl.map fun H => H.submatrix l.get l.get

/-- The Hamiltonians do not lead out of the subspace. -/
structure StaysIn (l : List n) (p : SPar n m) : Prop where
  distinct : l.Nodup
  drift : ∀ H ∈ p.drift, Closed l (· ∈ l) H
  ctrl : ∀ H ∈ p.ctrl, Closed l (· ∈ l) H

/-- The matrix elements of a Hamiltonian between the states of `l` and the others. -/
def coupling (l : List n) (H : Matrix n n ℂ) : Matrix n n ℂ := fun i j => if i ∈ l ↔ j ∈ l then 0 else H i j

/-- The total Hamiltonians of the time steps, with their durations. -/
def totals (p : SPar n m) (τ : List ℝ) (u : Solver.Pulse) : List (ℝ × Matrix n n ℂ) :=
  List.zipWith (fun s a => (s, hamiltonian a.1 p.ctrl a.2)) τ (p.drift.zip u)

/-! ## Lemmas -/

/-- The states of `l` as vectors of the large space. -/
def emb (l : List n) : Matrix n (Fin l.length) ℂ := fun i a => if l.get a = i then 1 else 0

omit [Fintype n] in
theorem emb_eq (l : List n) : emb l = inclusion (some l) := rfl

theorem mul_emb (l : List n) (A : Matrix m n ℂ) : A * emb l = A.submatrix id l.get := by
  ext i a
  simp [Matrix.mul_apply, emb]

theorem emb_mul (l : List n) (A : Matrix n m ℂ) : (emb l)ᴴ * A = A.submatrix l.get id := by
  ext i a
  simp only [Matrix.mul_apply, Matrix.conjTranspose_apply, emb, Matrix.submatrix_apply, id]
  rw [Finset.sum_eq_single (l.get i)]
  · simp
  · intro j _ hj
    rw [if_neg (Ne.symm hj)]
    simp
  · simp

omit [Fintype n] in
theorem emb_mul_in {l : List n} (hl : l.Nodup) (A : Matrix (Fin l.length) m ℂ) (a : Fin l.length) (b : m) :
    (emb l * A) (l.get a) b = A a b := by
  rw [Matrix.mul_apply, Finset.sum_eq_single a]
  · simp [emb]
  · intro c _ hc
    have : l.get c ≠ l.get a := fun h => hc (List.nodup_iff_injective_get.mp hl h)
    rw [emb, if_neg this, zero_mul]
  · simp

omit [Fintype n] in
theorem emb_mul_out (l : List n) (A : Matrix (Fin l.length) m ℂ) {j : n} (hj : j ∉ l) (b : m) : (emb l * A) j b = 0 := by
  rw [Matrix.mul_apply]
  refine Finset.sum_eq_zero fun c _ => ?_
  rw [emb, if_neg (fun h : l.get c = j => hj (h ▸ List.get_mem l c)), zero_mul]

omit [Fintype n] in
theorem eq_emb_mul {l : List n} (hl : l.Nodup) {X : Matrix n m ℂ} (h : ∀ j, j ∉ l → ∀ b, X j b = 0) : X = emb l * X.submatrix l.get id := by
  ext j b
  by_cases hj : j ∈ l
  · obtain ⟨a, rfl⟩ := List.get_of_mem hj
    rw [emb_mul_in hl]
    rfl
  · rw [emb_mul_out l _ hj, h j hj]

/-- An operator which does not lead out of the subspace, on the states of the subspace. -/
theorem closed_emb {l : List n} (hl : l.Nodup) {H : Matrix n n ℂ} (h : Closed l (· ∈ l) H) :
    H * emb l = emb l * H.submatrix l.get l.get := by
  rw [mul_emb]
  exact eq_emb_mul hl fun j hj b => h _ (List.get_mem l b) j hj

theorem emb_isometry {l : List n} (hl : l.Nodup) : (emb l)ᴴ * emb l = 1 := by
  rw [emb_mul]
  ext a b
  rw [Matrix.one_apply]
  simp only [Matrix.submatrix_apply, id, emb]
  by_cases h : a = b
  · simp [h]
  · rw [if_neg h, if_neg fun e => h (List.nodup_iff_injective_get.mp hl e).symm]

open scoped Matrix.Norms.Operator in
/-- The exponential of operators with the same action on a subspace. -/
theorem exp_intertwine {k : Type} [Fintype k] [DecidableEq k] {A : Matrix n n ℂ} {B : Matrix k k ℂ} {E : Matrix n k ℂ} (h : A * E = E * B) :
    NormedSpace.exp A * E = E * NormedSpace.exp B := by
  let : NormedAlgebra ℚ (Matrix n n ℂ) := NormedAlgebra.restrictScalars ℚ ℂ _
  let : NormedAlgebra ℚ (Matrix k k ℂ) := NormedAlgebra.restrictScalars ℚ ℂ _
  have hp : ∀ i : Nat, A ^ i * E = E * B ^ i := by
    intro i
    induction i with
    | zero => simp
    | succ i ih => rw [pow_succ, pow_succ, Matrix.mul_assoc, h, ← Matrix.mul_assoc, ih, Matrix.mul_assoc]
  have h1 := NormedSpace.exp_series_hasSum_exp' (𝕂 := ℂ) A
  have h2 := NormedSpace.exp_series_hasSum_exp' (𝕂 := ℂ) B
  have g1 := h1.map (AddMonoidHom.mk' (fun X : Matrix n n ℂ => X * E) fun X Y => Matrix.add_mul X Y E)
    (show Continuous fun X : Matrix n n ℂ => X * E from continuous_id.matrix_mul continuous_const)
  have g2 := h2.map (AddMonoidHom.mk' (fun X : Matrix k k ℂ => E * X) fun X Y => Matrix.mul_add E X Y)
    (show Continuous fun X : Matrix k k ℂ => E * X from continuous_const.matrix_mul continuous_id)
  have e : ((AddMonoidHom.mk' (fun X : Matrix n n ℂ => X * E) fun X Y => Matrix.add_mul X Y E) ∘ fun i : ℕ => ((i.factorial : ℂ))⁻¹ • A ^ i) =
      (AddMonoidHom.mk' (fun X : Matrix k k ℂ => E * X) fun X Y => Matrix.mul_add E X Y) ∘ fun i : ℕ => ((i.factorial : ℂ))⁻¹ • B ^ i := by
    funext i
    simp [hp]
  rw [e] at g1
  exact g1.unique g2

theorem hamiltonian_emb {l : List n} {H₀ : Matrix n n ℂ} {ctrl : List (Matrix n n ℂ)} (hl : l.Nodup) (h0 : Closed l (· ∈ l) H₀)
    (hc : ∀ H ∈ ctrl, Closed l (· ∈ l) H) (row : List ℝ) :
    hamiltonian H₀ ctrl row * emb l =
      emb l * hamiltonian (H₀.submatrix l.get l.get) (ctrl.map fun H => H.submatrix l.get l.get) row := by
  unfold hamiltonian
  rw [Matrix.add_mul, Matrix.mul_add, closed_emb hl h0]
  congr 1
  induction row generalizing ctrl with
  | nil => simp
  | cons x row ih =>
    cases ctrl with
    | nil => simp
    | cons H ctrl =>
      rw [List.map_cons, List.zipWith_cons_cons, List.zipWith_cons_cons, List.sum_cons, List.sum_cons, Matrix.add_mul, Matrix.mul_add,
        ih fun G hG => hc G (by simp [hG]), Matrix.smul_mul, closed_emb hl (hc H (by simp)), Matrix.mul_smul]

/-- The forward propagators of both systems. -/
theorem forward_emb {l : List n} {p : SPar n m} {r : SPar (Fin l.length) k} [Fintype m] (hp : LeavesOut l p r) (hs : StaysIn l p) (S : Matrix m k ℂ)
    (hi : p.init * S = emb l * r.init) {τ : List ℝ} (h : Computes p τ) (h' : Computes r τ) (u : Solver.Pulse) (hu : u.length = τ.length)
    (hrow : ∀ row ∈ u, row.length = p.ctrl.length) :
    ∃ f f', (readFwd p.bare.cfg (fresh p.bare.cfg τ u)).1 = .ok f ∧ (readFwd r.bare.cfg (fresh r.bare.cfg τ u)).1 = .ok f' ∧
      f.length = τ.length + 1 ∧ f'.length = τ.length + 1 ∧
      ∀ i ≤ τ.length, ∃ F F', f[i]? = some F ∧ f'[i]? = some F' ∧ F * S = emb l * F' := by
  obtain ⟨f, e1, e2⟩ := h.fwd u hu hrow
  obtain ⟨f', e3, e4⟩ := h'.fwd u hu (by simpa [hp.ctrl] using hrow)
  have hl : (p.bare.steps τ u).length = τ.length := steps_length _ _ _
  have hl' : (r.bare.steps τ u).length = τ.length := steps_length _ _ _
  refine ⟨f, f', e1, e3, by rw [e2.1, hl], by rw [e4.1, hl'], fun i hi => ?_⟩
  induction i with
  | zero => exact ⟨_, _, e2.2.1, e4.2.1, by assumption⟩
  | succ i ih =>
    obtain ⟨F, F', g1, g2, g3⟩ := ih (by omega)
    obtain ⟨F₁, k1, k2⟩ := e2.2.2 i (by omega)
    obtain ⟨F₂, k3, k4⟩ := e4.2.2 i (by omega)
    rw [g1] at k1
    rw [g2] at k3
    simp only [Option.some.injEq] at k1 k3
    subst k1 k3
    refine ⟨_, _, k2, k4, ?_⟩
    have hd : i < p.drift.length := by rw [h.drift]; omega
    have hst : (p.bare.steps τ u)[i] * emb l = emb l * (r.bare.steps τ u)[i] := by
      have a1 := h.steps_eq u hu
      have a2 := h'.steps_eq u hu
      simp only [a1, a2, List.getElem_zipWith, List.getElem_zip]
      refine exp_intertwine ?_
      rw [Matrix.smul_mul, Matrix.smul_mul, Matrix.mul_smul, Matrix.mul_smul]
      simp only [hp.drift, hp.ctrl, List.getElem_map]
      rw [hamiltonian_emb hs.distinct (hs.drift _ (List.getElem_mem _)) hs.ctrl]
    rw [Matrix.mul_assoc, g3, ← Matrix.mul_assoc, hst, Matrix.mul_assoc]

/-! ## C144 -/

/-- **C144** (operators) If the Hamiltonians do not lead out of the subspace, the propagators of the truncated system are the truncated
propagators, at all times, and the full ones do not lead out of the subspace either. -/
theorem c144_forward (l : List n) (p : SPar n n) (r : SPar (Fin l.length) (Fin l.length)) (hp : LeavesOut l p r) (hs : StaysIn l p)
    (hi : Closed l (· ∈ l) p.init) (hi' : r.init = p.init.submatrix l.get l.get) (τ : List ℝ) (h : Computes p τ) (h' : Computes r τ)
    (u : Solver.Pulse) (hu : u.length = τ.length) (hrow : ∀ row ∈ u, row.length = p.ctrl.length) :
    ∃ f, (readFwd p.bare.cfg (fresh p.bare.cfg τ u)).1 = .ok f ∧ f.length = τ.length + 1 ∧ (∀ F ∈ f, Closed l (· ∈ l) F) ∧
      (readFwd r.bare.cfg (fresh r.bare.cfg τ u)).1 = .ok (f.map fun F => F.submatrix l.get l.get) := by
  obtain ⟨f, f', e1, e2, e3, e4, e5⟩ := forward_emb hp hs (emb l) (by rw [hi', closed_emb hs.distinct hi]) h h' u hu hrow
  have key : ∀ i (hi : i < f.length) (hi' : i < f'.length), f[i] * emb l = emb l * f'[i] := by
    intro i hi hi'
    obtain ⟨F, F', g1, g2, g3⟩ := e5 i (by omega)
    rw [List.getElem?_eq_getElem hi] at g1
    rw [List.getElem?_eq_getElem hi'] at g2
    rw [Option.some.inj g1, Option.some.inj g2]
    exact g3
  refine ⟨f, e1, e3, fun F hF => ?_, ?_⟩
  · obtain ⟨i, hi, rfl⟩ := List.getElem_of_mem hF
    intro a ha j hj
    obtain ⟨b, rfl⟩ := List.get_of_mem ha
    have := congrFun (congrFun (key i hi (by omega)) j) b
    rw [emb_mul_out l _ hj, mul_emb] at this
    exact this
  · rw [e2]
    congr 1
    refine List.ext_getElem (by simp [e3, e4]) fun i h1 h2 => ?_
    rw [List.getElem_map]
    have := congrArg ((emb l)ᴴ * ·) (key i (by simpa using h2) h1)
    rw [← Matrix.mul_assoc (emb l)ᴴ (emb l), emb_isometry hs.distinct, Matrix.one_mul, mul_emb, emb_mul] at this
    exact this.symm

/-- **C144** (states) The same for the evolution of a state of the subspace. -/
theorem c144_states (l : List n) (p : SPar n (Fin 1)) (r : SPar (Fin l.length) (Fin 1)) (hp : LeavesOut l p r) (hs : StaysIn l p)
    (hi : Closed l (fun _ => True) p.init) (hi' : r.init = p.init.submatrix l.get id) (τ : List ℝ) (h : Computes p τ) (h' : Computes r τ)
    (u : Solver.Pulse) (hu : u.length = τ.length) (hrow : ∀ row ∈ u, row.length = p.ctrl.length) :
    ∃ f, (readFwd p.bare.cfg (fresh p.bare.cfg τ u)).1 = .ok f ∧ f.length = τ.length + 1 ∧ (∀ F ∈ f, Closed l (fun _ => True) F) ∧
      (readFwd r.bare.cfg (fresh r.bare.cfg τ u)).1 = .ok (f.map fun F => F.submatrix l.get id) := by
  obtain ⟨f, f', e1, e2, e3, e4, e5⟩ := forward_emb hp hs 1 (by
    rw [hi', Matrix.mul_one]; exact eq_emb_mul hs.distinct fun j hj b => hi b trivial j hj) h h' u hu hrow
  have key : ∀ i (hi : i < f.length) (hi' : i < f'.length), f[i] = emb l * f'[i] := by
    intro i hi hi'
    obtain ⟨F, F', g1, g2, g3⟩ := e5 i (by omega)
    rw [List.getElem?_eq_getElem hi] at g1
    rw [List.getElem?_eq_getElem hi'] at g2
    rw [Option.some.inj g1, Option.some.inj g2, ← g3, Matrix.mul_one]
  refine ⟨f, e1, e3, fun F hF => ?_, ?_⟩
  · obtain ⟨i, hi, rfl⟩ := List.getElem_of_mem hF
    intro a _ j hj
    rw [key i hi (by omega), emb_mul_out l _ hj]
  · rw [e2]
    congr 1
    refine List.ext_getElem (by simp [e3, e4]) fun i h1 h2 => ?_
    rw [List.getElem_map, key i (by simpa using h2) h1, ← emb_mul, ← Matrix.mul_assoc, emb_isometry hs.distinct, Matrix.one_mul]

/-! ### The simulator -/

theorem costOn_fwd {costF : List (Matrix n m ℂ) → Except PyErr ℝ} {cfg : Cfg n m} {s : St n m} {f : List (Matrix n m ℂ)}
    (h : (readFwd cfg s).1 = .ok f) : (costOn costF cfg s).1 = costF f := by
  unfold costOn
  rcases hq : readFwd cfg s with ⟨r, s'⟩
  rw [hq] at h
  simp only at h
  subst h
  rfl

/-- Specification: the same infidelity with `computational_states` and with the truncated system.  The target has the size of the
subspace in both cases. -/
inductive SmallerSystem (s : SolverObj q) (F F' : CostFn q) : Prop
  | operation {n : Type} [Fintype n] [DecidableEq n] (l : List n) (hne : l ≠ []) (p : SPar n n) (r : SPar (Fin l.length) (Fin l.length))
      (τ : List ℝ) (h : Exact p τ) (h' : Exact r τ) (hp : LeavesOut l p r) (hs : StaysIn l p) (hi : Closed l (· ∈ l) p.init)
      (hi' : r.init = p.init.submatrix l.get l.get) (hc : s.c = p.ctrl.length) (hN : s.nTimes = τ.length) (cl cl' : Closest) (mcu : Bool)
      (T : Matrix (Fin l.length) (Fin l.length) ℂ) (i : Nat) (label : String)
      (hF : F = operationCost p τ cl (some l) T false i label) (hF' : F' = operationCost r τ cl' none T mcu i label)
  | state {n : Type} [Fintype n] [DecidableEq n] (l : List n) (hne : l ≠ []) (p : SPar n (Fin 1)) (r : SPar (Fin l.length) (Fin 1))
      (τ : List ℝ) (h : Exact p τ) (h' : Exact r τ) (hp : LeavesOut l p r) (hs : StaysIn l p) (hi : Closed l (fun _ => True) p.init)
      (hi' : r.init = p.init.submatrix l.get id) (hc : s.c = p.ctrl.length) (hN : s.nTimes = τ.length)
      (T : Matrix (Fin 1) (Fin l.length) ℂ) (b b' : Bool) (i : Nat) (label : String)
      (hF : F = stateCost p τ (some l) T b i label) (hF' : F' = stateCost r τ none T b' i label)

/-- Specification: two simulators with the same transfer and amplitude functions, one of them with the truncated systems. -/
structure Smaller (N : Nat) (sim sim' : Sim q) : Prop where
  solvers : sim'.solvers = sim.solvers
  assembled : ∀ s ∈ sim.solvers, Assembled s N
  costs : List.Forall₂ (fun F F' => F.solver = F'.solver ∧ ∃ s, sim.solvers[F.solver]? = some s ∧ SmallerSystem s F F')
    sim.costFuncs sim'.costFuncs
  nonempty : sim.costFuncs ≠ []

theorem SmallerSystem.infidelity {s : SolverObj q} {F F' : CostFn q} (hF : SmallerSystem s F F') : Infidelity F s ∧ Infidelity F' s := by
  cases hF with
  | operation l hne p r τ h h' hp hs hi hi' hc hN cl cl' mcu T i label hF hF' =>
    exact ⟨.operation p τ h hc hN cl (some l) (by simpa using hne) false (Or.inl rfl) T i label hF,
      .operation r τ h' (by rw [hc, hp.ctrl]; simp) hN cl' none (by simp) mcu (Or.inr rfl) T i label hF'⟩
  | state l hne p r τ h h' hp hs hi hi' hc hN T b b' i label hF hF' =>
    exact ⟨.state p τ h hc hN (some l) (by simpa using hne) T b i label hF,
      .state r τ h' (by rw [hc, hp.ctrl]; simp) hN none (by simp) T b' i label hF'⟩

theorem _root_.Verif.Sim.Exact.computes {p : SPar n m} {τ : List ℝ} (h : Exact p τ) : Computes p τ :=
  ⟨h.ctrl, h.drift, h.steps, h.stable, Or.inl ⟨h.method, h.expm⟩⟩

omit [Fintype n] [DecidableEq n] in
theorem last_map {α β : Type} (g : α → β) (f : List α) (a : α) (h : f.getLast? = some a) : last (f.map g) = .ok (g a) := by
  refine last_ok ?_
  rw [List.getLast?_map, h]
  rfl

omit [DecidableEq n] in
theorem opCosts_sub (cl cl' : Closest) (l : List n) (T : Matrix (Fin l.length) (Fin l.length) ℂ) (mcu : Bool) (f : List (Matrix n n ℂ)) :
    opCosts cl (some l) T false f = opCosts cl' none T mcu (f.map fun F => F.submatrix l.get l.get) := by
  unfold opCosts
  cases h : f.getLast? with
  | none =>
    have : f = [] := by simpa using h
    subst this
    rfl
  | some U =>
    rw [last_ok h, last_map _ f U h]
    cases mcu <;> rfl

omit [DecidableEq n] in
theorem stateCosts_sub (l : List n) (T : Matrix (Fin 1) (Fin l.length) ℂ) (b b' : Bool) (f : List (Matrix n (Fin 1) ℂ)) :
    stateCosts (some l) T b f = stateCosts none T b' (f.map fun F => F.submatrix l.get id) := by
  unfold stateCosts
  cases h : f.getLast? with
  | none =>
    have : f = [] := by simpa using h
    subst this
    rfl
  | some U =>
    rw [last_ok h, last_map _ f U h]
    rfl

theorem SmallerSystem.costs_eq {N : Nat} {s s₁ : SolverObj q} {F F' : CostFn q} (hA : Assembled s N) (hF : SmallerSystem s F F')
    (y : Transfer.Pulse ℝ q) (h1 : s.setPars y = .ok s₁) : F.costs s₁ = F'.costs s₁ := by
  obtain ⟨tf, x, -, hx, hl, rfl⟩ := setPars_ok hA.coherent h1
  cases hF with
  | operation l hne p r τ h h' hp hs hi hi' hc hN cl cl' mcu T i label hF hF' =>
    subst hF hF'
    obtain ⟨f, e1, -, -, e4⟩ := c144_forward l p r hp hs hi hi' τ h.computes h'.computes ((s.amp.call x).map fun r => List.ofFn r)
      (by simpa [hN] using hl) (by
        intro row hr
        obtain ⟨r, -, rfl⟩ := List.mem_map.mp hr
        simpa using hc)
    have g1 := costOn_fwd (costF := opCosts cl (some l) T false) e1
    have g2 := costOn_fwd (costF := opCosts cl' none T mcu) e4
    rw [← opCosts_sub cl cl' l T mcu f, ← g1] at g2
    exact congrArg (Except.map fun x : ℝ => [x]) g2.symm
  | state l hne p r τ h h' hp hs hi hi' hc hN T b b' i label hF hF' =>
    subst hF hF'
    obtain ⟨f, e1, -, -, e4⟩ := c144_states l p r hp hs hi hi' τ h.computes h'.computes ((s.amp.call x).map fun r => List.ofFn r)
      (by simpa [hN] using hl) (by
        intro row hr
        obtain ⟨r, -, rfl⟩ := List.mem_map.mp hr
        simpa using hc)
    have g1 := costOn_fwd (costF := stateCosts (some l) T b) e1
    have g2 := costOn_fwd (costF := stateCosts none T b') e4
    rw [← stateCosts_sub l T b b' f, ← g1] at g2
    exact congrArg (Except.map fun x : ℝ => [x]) g2.symm

theorem Smaller.infidelity {N : Nat} {sim sim' : Sim q} (h : Smaller N sim sim') :
    (∀ F ∈ sim.costFuncs, ∃ s, sim.solvers[F.solver]? = some s ∧ Infidelity F s) ∧
    ∀ F ∈ sim'.costFuncs, ∃ s, sim'.solvers[F.solver]? = some s ∧ Infidelity F s := by
  rw [h.solvers]
  have := h.costs
  clear h
  generalize sim.costFuncs = S at *
  generalize sim'.costFuncs = S' at *
  induction this with
  | nil => simp
  | cons hs _ ih =>
    obtain ⟨e0, s, e1, e2⟩ := hs
    obtain ⟨a1, a2⟩ := e2.infidelity
    refine ⟨fun s hs => ?_, fun s hs => ?_⟩ <;> rcases List.mem_cons.mp hs with rfl | hs
    · exact ⟨_, e1, a1⟩
    · exact ih.1 s hs
    · exact ⟨_, e0 ▸ e1, a2⟩
    · exact ih.2 s hs

theorem costLoop_smaller {N : Nat} {S ss : List (SolverObj q)} (hA : ∀ s ∈ S, Assembled s N) (y : Transfer.Pulse ℝ q)
    (h1 : Sim.setSolvers S y = .ok ss) {Fs Fs' : List (CostFn q)}
    (h : List.Forall₂ (fun F F' => F.solver = F'.solver ∧ ∃ s, S[F.solver]? = some s ∧ SmallerSystem s F F') Fs Fs') :
    Sim.costLoop ss Fs = Sim.costLoop ss Fs' := by
  induction h with
  | nil => rfl
  | cons hF _ ih =>
    obtain ⟨e0, s, e1, e2⟩ := hF
    obtain ⟨s₁, g1, g2⟩ := setSolvers_get' h1 e1
    have g3 := g1
    rw [e0] at g3
    simp only [Sim.costLoop, g1, g3, bind, Except.bind, e2.costs_eq (hA s (List.mem_of_getElem? e1)) y g2, ih]

/-- **C144** The costs with `computational_states` on the large system and those of the truncated system are the same for every pulse. -/
theorem c144_costs {N : Nat} (sim sim' : Sim q) (h : Smaller N sim sim') (y : Transfer.Pulse ℝ q) (hy : y.length = N) :
    ∃ v s s', sim.wrappedCosts (some y) = .ok (s, v) ∧ sim'.wrappedCosts (some y) = .ok (s', v) := by
  obtain ⟨ss, hss⟩ := setSolvers_of (y := y) fun s hs => by
    obtain ⟨⟨x, hx, -, hl⟩, -⟩ := (h.assembled s hs).run y hy
    exact setPars_of hx hl
  have hloop := costLoop_smaller h.assembled y hss h.costs
  obtain ⟨v, hv, hvl⟩ := costLoop_ok h.assembled y hss sim.costFuncs h.infidelity.1
  obtain ⟨r, hr⟩ : ∃ r, Sim.concatenate0 v = .ok r := by
    cases v with
    | nil => exact absurd (List.length_eq_zero_iff.mp hvl.symm) h.nonempty
    | cons a l => exact ⟨_, rfl⟩
  refine ⟨r, { sim with solvers := ss }, { sim' with solvers := ss }, ?_, ?_⟩
  · simp only [Sim.wrappedCosts, Sim.given, hss, bind, Except.bind, hv, hr, pure, Except.pure]
  · simp only [Sim.wrappedCosts, Sim.given, h.solvers, hss, bind, Except.bind, ← hloop, hv, hr, pure, Except.pure]

/-- **C144** ... and so are the gradients. -/
theorem c144_gradient {N : Nat} (hq : 0 < q) (sim sim' : Sim q) (h : Smaller N sim sim') (hn : sim.numericJacobian = false)
    (hn' : sim'.numericJacobian = false) (y : Transfer.Pulse ℝ q) (hy : y.length = N) :
    ∃ J s s', sim.wrappedJac (some y) = .ok (s, J) ∧ sim'.wrappedJac (some y) = .ok (s', J) := by
  obtain ⟨hF, hF'⟩ := h.infidelity
  have hne' : sim'.costFuncs ≠ [] := by
    intro h0
    have := h.costs.length_eq
    rw [h0] at this
    exact h.nonempty (List.length_eq_zero_iff.mp this)
  exact jac_unique hn hn' hq y (by rw [hy]; exact h.assembled) (by rw [hy, h.solvers]; exact h.assembled) h.nonempty hne' hF hF' fun z hz =>
    c144_costs sim sim' h z (hz.trans hy)

/-! ### Weak coupling -/

section
open scoped Matrix.Norms.L2Operator

/-- How far two evolutions get apart. -/
theorem evolve_lip (L : List (ℝ × Matrix n n ℂ)) (g : Matrix n n ℂ → Matrix n n ℂ) (h : ∀ x ∈ L, x.2.IsHermitian)
    (hg : ∀ x ∈ L, (g x.2).IsHermitian) :
    ‖evolve L - evolve (L.map fun x => (x.1, g x.2))‖ ≤ (L.map fun x => |x.1| * ‖x.2 - g x.2‖).sum := by
  induction L using List.reverseRecOn with
  | nil => simp [evolve]
  | append_singleton L x ih =>
    have hx := h x (by simp)
    have hx' := hg x (by simp)
    have hl := ih (fun y hy => h y (by simp [hy])) fun y hy => hg y (by simp [hy])
    rw [List.map_append, List.map_append, List.map_singleton, evolve_append, evolve_append, List.sum_append]
    set P := NormedSpace.exp (((x.1 : ℝ) : ℂ) • ((-Complex.I) • x.2)) with hP
    set Q := NormedSpace.exp (((x.1 : ℝ) : ℂ) • ((-Complex.I) • g x.2)) with hQ
    set W := evolve (L.map fun x => (x.1, g x.2)) with hW
    have hPu : P ∈ unitary (Matrix n n ℂ) := step_unitary hx
    have hWu : W ∈ unitary (Matrix n n ℂ) := by
      refine evolve_unitary _ fun y hy => ?_
      obtain ⟨z, hz, rfl⟩ := List.mem_map.mp hy
      exact hg z (by simp [hz])
    have h1 : ‖P - Q‖ ≤ |x.1| * ‖x.2 - g x.2‖ := by
      have := exp_lip (A := ((x.1 : ℝ) : ℂ) • ((-Complex.I) • x.2)) (B := ((x.1 : ℝ) : ℂ) • ((-Complex.I) • g x.2))
        (by rw [Matrix.conjTranspose_smul, skew_of_hermitian hx]; simp) (by rw [Matrix.conjTranspose_smul, skew_of_hermitian hx']; simp)
      rw [← smul_sub, ← smul_sub, norm_smul, norm_smul] at this
      simp only [Complex.norm_real, norm_neg, Complex.norm_I, one_mul, Real.norm_eq_abs] at this
      exact this
    have e : P * evolve L - Q * W = P * (evolve L - W) + (P - Q) * W := by noncomm_ring
    rw [e]
    refine (norm_add_le _ _).trans ?_
    rw [CStarRing.norm_mem_unitary_mul _ hPu, CStarRing.norm_mul_mem_unitary _ hWu]
    simp
    linarith

omit [Fintype n] in
theorem coupling_hermitian {l : List n} {H : Matrix n n ℂ} (h : H.IsHermitian) : (H - coupling l H).IsHermitian := by
  ext i j
  have := h.apply i j
  simp only [Matrix.conjTranspose_apply, Matrix.sub_apply, coupling]
  by_cases h1 : i ∈ l <;> by_cases h2 : j ∈ l <;> simp [h1, h2, this]

omit [Fintype n] in
theorem coupling_closed (l : List n) (H : Matrix n n ℂ) : Closed l (· ∈ l) (H - coupling l H) := by
  intro i hi j hj
  simp [coupling, hi, hj]

omit [Fintype n] in
theorem coupling_sub (l : List n) (H : Matrix n n ℂ) : (H - coupling l H).submatrix l.get l.get = H.submatrix l.get l.get := by
  ext a b
  have h1 : l.get a ∈ l := List.get_mem l a
  have h2 : l.get b ∈ l := List.get_mem l b
  simp only [Matrix.submatrix_apply, Matrix.sub_apply, coupling, h1, h2, if_true, sub_zero]

theorem evolve_emb {l : List n} (hl : l.Nodup) (L : List (ℝ × Matrix n n ℂ)) (h : ∀ x ∈ L, Closed l (· ∈ l) x.2) :
    evolve L * emb l = emb l * evolve (L.map fun x => (x.1, x.2.submatrix l.get l.get)) := by
  induction L using List.reverseRecOn with
  | nil => simp [evolve]
  | append_singleton L x ih =>
    rw [List.map_append, List.map_singleton, evolve_append, evolve_append, Matrix.mul_assoc, ih fun y hy => h y (by simp [hy]),
      ← Matrix.mul_assoc, ← Matrix.mul_assoc]
    congr 1
    refine exp_intertwine ?_
    rw [Matrix.smul_mul, Matrix.smul_mul, Matrix.mul_smul, Matrix.mul_smul, closed_emb hl (h x (by simp))]

/-- The final propagator. -/
theorem Computes.final_evolve {p : SPar n n} {τ : List ℝ} (h : Computes p τ) (u : Solver.Pulse) (hu : u.length = τ.length)
    (hrow : ∀ row ∈ u, row.length = p.ctrl.length) :
    ∃ f, (readFwd p.bare.cfg (fresh p.bare.cfg τ u)).1 = .ok f ∧ f.getLast? = some (evolve (totals p τ u) * p.init) := by
  obtain ⟨f, e1, e2⟩ := h.fwd u hu hrow
  refine ⟨f, e1, ?_⟩
  have h5 := isForward_unique e2 _ le_rfl
  rw [List.getLast?_eq_getElem?, e2.1, Nat.add_sub_cancel, h5, List.take_length, h.steps_eq _ hu]
  congr 1
  have : ∀ (L : List (ℝ × Matrix n n ℂ)) (I : Matrix n n ℂ),
      L.foldl (fun F x => NormedSpace.exp (((x.1 : ℝ) : ℂ) • ((-Complex.I) • x.2)) * F) I = evolve L * I := by
    intro L I
    induction L using List.reverseRecOn with
    | nil => simp [evolve]
    | append_singleton L x ih => rw [List.foldl_append, ih, evolve_append, Matrix.mul_assoc]; rfl
  rw [← this]
  unfold totals
  rw [← List.map_uncurry_zip_eq_zipWith, ← List.map_uncurry_zip_eq_zipWith, List.foldl_map, List.foldl_map]
  rfl

theorem totals_hermitian {p : SPar n m} (hd : ∀ H ∈ p.drift, H.IsHermitian) (hc : ∀ H ∈ p.ctrl, H.IsHermitian) (τ : List ℝ) (u : Solver.Pulse) :
    ∀ x ∈ totals p τ u, x.2.IsHermitian := by
  intro x hx
  unfold totals at hx
  rw [← List.map_uncurry_zip_eq_zipWith] at hx
  obtain ⟨⟨s, d, a⟩, ha, rfl⟩ := List.mem_map.mp hx
  exact hamiltonian_hermitian (hd _ (List.of_mem_zip (List.of_mem_zip ha).2).1) hc _

omit [Fintype n] [DecidableEq n] in
theorem totals_sub {l : List n} {p : SPar n m} {r : SPar (Fin l.length) k} (hp : LeavesOut l p r) (τ : List ℝ) (u : Solver.Pulse) :
    totals r τ u = (totals p τ u).map fun x => (x.1, x.2.submatrix l.get l.get) := by
  have hsub : ∀ (H₀ : Matrix n n ℂ) (ctrl : List (Matrix n n ℂ)) (row : List ℝ),
      hamiltonian (H₀.submatrix l.get l.get) (ctrl.map fun H => H.submatrix l.get l.get) row =
        (hamiltonian H₀ ctrl row).submatrix l.get l.get := by
    intro H₀ ctrl row
    unfold hamiltonian
    rw [show ∀ A B : Matrix n n ℂ, (A + B).submatrix l.get l.get = A.submatrix l.get l.get + B.submatrix l.get l.get from fun _ _ => rfl]
    congr 1
    induction row generalizing ctrl with
    | nil => simp
    | cons x row ih =>
      cases ctrl with
      | nil => simp
      | cons H ctrl =>
        rw [List.map_cons, List.zipWith_cons_cons, List.zipWith_cons_cons, List.sum_cons, List.sum_cons, ih]
        rfl
  unfold totals
  refine List.ext_getElem (by simp [hp.drift]) fun i h1 h2 => ?_
  simp only [List.getElem_zipWith, List.getElem_zip, List.getElem_map, hp.drift, hp.ctrl, hsub]

theorem sub_unitary {l : List n} (hl : l.Nodup) {U : Matrix n n ℂ} (hU : U ∈ Matrix.unitaryGroup n ℂ) {W : Matrix (Fin l.length) (Fin l.length) ℂ}
    (h : U * emb l = emb l * W) : W = U.submatrix l.get l.get ∧ W ∈ Matrix.unitaryGroup (Fin l.length) ℂ := by
  have hEE := emb_isometry hl
  constructor
  · have := congrArg ((emb l)ᴴ * ·) h
    rw [← Matrix.mul_assoc (emb l)ᴴ (emb l), hEE, Matrix.one_mul, mul_emb, emb_mul] at this
    exact this.symm
  · rw [Matrix.mem_unitaryGroup_iff']
    have hUU : Uᴴ * U = 1 := Matrix.mem_unitaryGroup_iff'.mp hU
    calc Wᴴ * W = Wᴴ * ((emb l)ᴴ * emb l) * W := by rw [hEE, Matrix.mul_one]
      _ = (emb l * W)ᴴ * (emb l * W) := by simp only [Matrix.conjTranspose_mul, Matrix.mul_assoc]
      _ = (emb l)ᴴ * (Uᴴ * U) * emb l := by rw [← h]; simp only [Matrix.conjTranspose_mul, Matrix.mul_assoc]
      _ = 1 := by rw [hUU, Matrix.mul_one, hEE]

/-- The infidelities of two operations which are close to each other. -/
theorem infidelity_near (cl : Closest) {cs : Option (List n)} (hcs : ∀ l, cs = some l → l.Nodup) (hne : Nonempty (CompIdx cs)) {mcu : Bool}
    (hm : mcu = false ∨ cs = none) {T : Matrix (CompIdx cs) (CompIdx cs) ℂ} (hT : T ∈ Matrix.unitaryGroup (CompIdx cs) ℂ) {U V : Matrix n n ℂ}
    (hU : U ∈ Matrix.unitaryGroup n ℂ) (hV : V ∈ Matrix.unitaryGroup n ℂ) :
    √(1 - entFid cl cs T U mcu) ≤ ‖U - V‖ + √(1 - entFid cl cs T V mcu) ∧
    √(1 - entFid cl cs T V mcu) ≤ √(1 - entFid cl cs T U mcu) + ‖U - V‖ := by
  have hX : Vᴴ * U ∈ Matrix.unitaryGroup n ℂ := mul_mem (Unitary.star_mem hV) hU
  have hVV : V * Vᴴ = 1 := Matrix.mem_unitaryGroup_iff.mp hV
  have hVV' : Vᴴ * V = 1 := Matrix.mem_unitaryGroup_iff'.mp hV
  obtain ⟨a1, -, a3, -⟩ := infidelity_mul (n := n) cl hcs hne hm (one_mem _) (T₂ := T) hT hX hV
  rw [Matrix.mul_one, ← Matrix.mul_assoc, hVV, Matrix.one_mul] at a1 a3
  have a4 := idle_infidelity cl hcs hne hm hX
  have a5 : ‖Vᴴ * U - 1‖ = ‖U - V‖ := by
    rw [← hVV', ← Matrix.mul_sub]
    exact CStarRing.norm_mem_unitary_mul _ (Unitary.star_mem (show V ∈ unitary _ from hV))
  have a6 : √(1 - entFid cl cs 1 (Vᴴ * U) mcu) ≤ ‖U - V‖ := by
    rw [← a5, ← Real.sqrt_sq (norm_nonneg (Vᴴ * U - 1))]
    exact Real.sqrt_le_sqrt a4
  exact ⟨by linarith, by linarith⟩

/-- **C144** (weak coupling) If the Hamiltonians do lead out of the subspace, the square roots of the infidelities of the large and of the
truncated system differ at most by the accumulated norm of the coupling between the subspace and the other levels, and the leakage is
at most its square. -/
theorem c144_error (l : List n) (hl : l.Nodup) (hne : l ≠ []) (p : SPar n n) (r : SPar (Fin l.length) (Fin l.length)) (hp : LeavesOut l p r)
    (hd : ∀ H ∈ p.drift, H.IsHermitian) (hc : ∀ H ∈ p.ctrl, H.IsHermitian) (hiu : p.init ∈ Matrix.unitaryGroup n ℂ)
    (hi : Closed l (· ∈ l) p.init) (hi' : r.init = p.init.submatrix l.get l.get) (τ : List ℝ) (h : Computes p τ) (h' : Computes r τ)
    (cl cl' : Closest) (mcu : Bool) (T : Matrix (Fin l.length) (Fin l.length) ℂ) (hT : T ∈ Matrix.unitaryGroup (Fin l.length) ℂ)
    (u : Solver.Pulse) (hu : u.length = τ.length) (hrow : ∀ row ∈ u, row.length = p.ctrl.length) :
    ∃ c c' e : ℝ, (costOn (opCosts cl (some l) T false) p.bare.cfg (fresh p.bare.cfg τ u)).1 = .ok c ∧
      (costOn (opCosts cl' none T mcu) r.bare.cfg (fresh r.bare.cfg τ u)).1 = .ok c' ∧
      (costOn (leakCosts l) p.bare.cfg (fresh p.bare.cfg τ u)).1 = .ok e ∧ 0 ≤ c ∧ 0 ≤ c' ∧
      |√c - √c'| ≤ ((totals p τ u).map fun x => |x.1| * ‖coupling l x.2‖).sum ∧
      0 ≤ e ∧ e ≤ (((totals p τ u).map fun x => |x.1| * ‖coupling l x.2‖).sum) ^ 2 := by
  obtain ⟨f, e1, e2⟩ := h.final_evolve u hu hrow
  obtain ⟨f', e3, e4⟩ := h'.final_evolve u hu (by simpa [hp.ctrl] using hrow)
  set L := totals p τ u with hL
  have hLh : ∀ x ∈ L, x.2.IsHermitian := totals_hermitian hd hc τ u
  set g : Matrix n n ℂ → Matrix n n ℂ := fun H => H - coupling l H with hg
  set U := evolve L * p.init with hU
  set V := evolve (L.map fun x => (x.1, g x.2)) * p.init with hV
  set W := evolve (totals r τ u) * r.init with hW
  have hgh : ∀ x ∈ L, (g x.2).IsHermitian := fun x hx => coupling_hermitian (hLh x hx)
  have hUu : U ∈ Matrix.unitaryGroup n ℂ := mul_mem (evolve_unitary _ hLh) hiu
  have hVu : V ∈ Matrix.unitaryGroup n ℂ := by
    refine mul_mem (evolve_unitary _ fun y hy => ?_) hiu
    obtain ⟨z, hz, rfl⟩ := List.mem_map.mp hy
    exact hgh z hz
  have hVW : V * emb l = emb l * W := by
    have hce : evolve (L.map fun x => (x.1, g x.2)) * emb l = emb l * evolve (totals r τ u) := by
      rw [evolve_emb hl _ (by
        intro x hx
        obtain ⟨z, -, rfl⟩ := List.mem_map.mp hx
        exact coupling_closed l z.2), totals_sub hp, List.map_map]
      congr 2
      refine List.map_congr_left fun x _ => ?_
      simp only [Function.comp, hg, coupling_sub]
    rw [hV, hW, Matrix.mul_assoc, closed_emb hl hi, ← hi', ← Matrix.mul_assoc, hce, Matrix.mul_assoc]
  obtain ⟨hWs, hWu⟩ := sub_unitary hl hVu hVW
  have hdist : ‖U - V‖ ≤ (L.map fun x => |x.1| * ‖coupling l x.2‖).sum := by
    rw [hU, hV, ← Matrix.sub_mul, CStarRing.norm_mul_mem_unitary _ (show p.init ∈ unitary _ from hiu)]
    refine (evolve_lip L g hLh hgh).trans (le_of_eq ?_)
    simp [hg]
  have hnon : Nonempty (CompIdx (some l)) := ⟨(⟨0, List.length_pos_iff.mpr hne⟩ : Fin l.length)⟩
  have hnd : ∀ l', some l = some l' → l'.Nodup := by rintro l' h; cases h; exact hl
  have key : ∀ T : Matrix (Fin l.length) (Fin l.length) ℂ, T ∈ Matrix.unitaryGroup (Fin l.length) ℂ →
      √(1 - entFid cl (some l) T U false) ≤ ‖U - V‖ + √(1 - entFid cl (some l) T V false) ∧
      √(1 - entFid cl (some l) T V false) ≤ √(1 - entFid cl (some l) T U false) + ‖U - V‖ :=
    fun T hT => infidelity_near cl hnd hnon (Or.inl rfl) hT hUu hVu
  have hsame : ∀ T : Matrix (Fin l.length) (Fin l.length) ℂ, entFid cl (some l) T V false = entFid cl' none T W mcu := by
    intro T
    rw [hWs]
    cases mcu <;> rfl
  obtain ⟨e, k1, k2, -, k4⟩ := c49_range l hl hne f U e2 hUu
  have hself : entFid cl' (n := Fin l.length) none W W mcu = 1 := by
    have hlen : (l.length : ℝ) ≠ 0 := by exact_mod_cast (List.length_pos_iff.mpr hne).ne'
    have : entFid cl' (n := Fin l.length) none W W mcu = ‖(Wᴴ * W).trace‖ ^ 2 / Fintype.card (Fin l.length) / Fintype.card (Fin l.length) := by
      cases mcu <;> rfl
    rw [this, show Wᴴ * W = 1 from Matrix.mem_unitaryGroup_iff'.mp hWu, Matrix.trace_one]
    simp only [Fintype.card_fin, Complex.norm_natCast]
    field_simp
  have r1 := (c43_truncated cl l hl hne T hT U hUu).2.2
  have r2 := (c43_truncated cl l hl hne T hT V hVu).2.2
  have r3 := (c43_truncated cl l hl hne W hWu U hUu).2.1
  refine ⟨1 - entFid cl (some l) T U false, 1 - entFid cl' none T W mcu, e, costOn_last cl (some l) T false _ _ e1 e2,
    costOn_last cl' none T mcu _ _ e3 e4, ?_, ?_, ?_, ?_, k2, ?_⟩
  · rw [costOn_fwd e1, k1]
  · linarith
  · rw [← hsame]
    linarith
  · obtain ⟨b1, b2⟩ := key T hT
    rw [hsame] at b1 b2
    rw [abs_sub_le_iff]
    exact ⟨by linarith, by linarith⟩
  · obtain ⟨b1, -⟩ := key W hWu
    rw [hsame, hself, sub_self, Real.sqrt_zero, add_zero] at b1
    have b2 := b1.trans hdist
    have b3 : 1 - entFid cl (some l) W U false ≤ (L.map fun x => |x.1| * ‖coupling l x.2‖).sum ^ 2 := by
      rw [Real.sqrt_le_left] at b2
      · exact b2
      · exact (norm_nonneg _).trans hdist
    refine le_trans ?_ b3
    rw [k4]
    linarith

end

/-- **C144** (leakage) Hermitian Hamiltonians which do not lead out of the subspace cause no leakage, whatever the pulse, and the gradient
of the leakage vanishes. -/
theorem c144_leakage (l : List n) (hne : l ≠ []) (p : SPar n n) (hs : StaysIn l p) (hd : ∀ H ∈ p.drift, H.IsHermitian)
    (hc : ∀ H ∈ p.ctrl, H.IsHermitian) (hiu : p.init ∈ Matrix.unitaryGroup n ℂ) (hi : Closed l (· ∈ l) p.init) (τ : List ℝ) (h : Exact p τ)
    (U : Fin τ.length → Fin p.ctrl.length → ℝ) :
    (costOn (leakCosts l) p.bare.cfg (fresh p.bare.cfg τ (rowsOf U))).1 = .ok 0 ∧
    (gradOn (fun tr => leakGrad l tr.fwd tr.dP tr.rev) p.bare.cfg (fresh p.bare.cfg τ (rowsOf U))).1 =
      .ok (rowsOf fun (_ : Fin τ.length) (_ : Fin p.ctrl.length) => (0 : ℝ)) := by
  have hcost : ∀ V : Fin τ.length → Fin p.ctrl.length → ℝ,
      (costOn (leakCosts l) p.bare.cfg (fresh p.bare.cfg τ (rowsOf V))).1 = .ok 0 := by
    intro V
    obtain ⟨h1, h2⟩ := rowsOf_shape V
    obtain ⟨f, e1, e2⟩ := h.computes.final_evolve (rowsOf V) h1 h2
    rw [costOn_fwd e1]
    have hu : evolve (totals p τ (rowsOf V)) * p.init ∈ Matrix.unitaryGroup n ℂ :=
      mul_mem (evolve_unitary _ (totals_hermitian hd hc τ _)) hiu
    refine (c49_zero_iff l hs.distinct hne f _ e2 hu).mpr ?_
    have hcl : ∀ x ∈ totals p τ (rowsOf V), Closed l (· ∈ l) x.2 := by
      intro x hx i hi j hj
      unfold totals at hx
      rw [← List.map_uncurry_zip_eq_zipWith] at hx
      obtain ⟨⟨s, d, a⟩, ha, rfl⟩ := List.mem_map.mp hx
      have := hamiltonian_emb hs.distinct (hs.drift _ (List.of_mem_zip (List.of_mem_zip ha).2).1) hs.ctrl a
      obtain ⟨b, rfl⟩ := List.get_of_mem hi
      have := congrFun (congrFun this j) b
      rw [emb_mul_out l _ hj, mul_emb] at this
      exact this
    have hE : evolve (totals p τ (rowsOf V)) * p.init * emb l =
        emb l * (evolve ((totals p τ (rowsOf V)).map fun x => (x.1, x.2.submatrix l.get l.get)) * p.init.submatrix l.get l.get) := by
      rw [Matrix.mul_assoc, closed_emb hs.distinct hi, ← Matrix.mul_assoc, evolve_emb hs.distinct _ hcl, Matrix.mul_assoc]
    obtain ⟨w1, w2⟩ := sub_unitary hs.distinct hu hE
    rw [← w1]
    exact w2
  refine ⟨hcost U, ?_⟩
  obtain ⟨g, g1, g2, L, g3, g4⟩ := c50_total p.bare τ ⟨h.ctrl, h.drift, by
    show p.method ≠ .other
    rw [h.method]; simp⟩ h.stable h.method h.approx h.expm h.frechet h.steps (fun U => ⟨_, bare_reach p τ h.steps U⟩) hd hc hiu l hs.distinct hne U
  have hr : ∀ V : Fin τ.length → Fin p.ctrl.length → ℝ, Ready p.bare τ (rowsOf V) (fresh p.bare.cfg τ (rowsOf V)) :=
    fun V => ready_fresh p.bare τ _ _ (bare_reach p τ h.steps V)
  have hz : (fun V : Fin τ.length → Fin p.ctrl.length → ℝ => 1 - (((p.bare.final τ (rowsOf V)).submatrix l.get l.get)ᴴ *
      (p.bare.final τ (rowsOf V)).submatrix l.get l.get).trace.re / l.length) = fun _ => 0 := by
    funext V
    have := g2 V _ (hr V)
    rw [hcost V] at this
    exact (Except.ok.inj this).symm
  have hL : L = 0 :=
    (g3.congr_of_eventuallyEq (f₁ := fun _ => (0 : ℝ)) (Filter.Eventually.of_forall fun V => (congrFun hz V).symm)).unique
      (hasFDerivAt_const (0 : ℝ) _)
  have hg : g = fun _ _ => 0 := by
    funext t c
    have := g4 (unitAmp t c)
    rw [hL, Finset.sum_eq_single t, Finset.sum_eq_single c] at this
    · simpa [unitAmp] using this.symm
    · intro b _ hb; simp [unitAmp, hb]
    · simp
    · intro b _ hb
      refine Finset.sum_eq_zero fun k _ => ?_
      simp [unitAmp, hb]
    · simp
  have := g1 _ (hr U)
  rw [hg] at this
  exact this

/-! ### Cases -/

namespace Ex144

/-- Three levels; the drive connects the last with the first. -/
def drift : Matrix (Fin 3) (Fin 3) ℂ := !![1, 0, 0; 0, 7, 0; 0, 0, 2]
def drive : Matrix (Fin 3) (Fin 3) ℂ := !![0, 0, 1; 0, 0, 0; 1, 0, 0]
def phase : Matrix (Fin 3) (Fin 3) ℂ := !![0, 0, -Complex.I; 0, 5, 0; Complex.I, 0, 3]
/-- A drive which also reaches the level in the middle. -/
noncomputable def weak : Matrix (Fin 3) (Fin 3) ℂ := !![0, 1 / 100, 1; 1 / 100, 0, 0; 1, 0, 0]

noncomputable def large (L : Lapack (Fin 3)) (X : Matrix (Fin 3) (Fin 3) ℂ) : SPar (Fin 3) (Fin 3) :=
  ⟨L, .frechet, true, true, .none, 1, List.replicate 4 drift, [X, phase], idTf, id, idAmp⟩

/-- The levels 2 and 0, in this order. -/
noncomputable def small (L : Lapack (Fin 2)) : SPar (Fin 2) (Fin 2) :=
  ⟨L, .frechet, true, true, .none, 1, List.replicate 4 !![2, 0; 0, 1], [!![0, 1; 1, 0], !![3, Complex.I; -Complex.I, 0]], idTf, id, idAmp⟩

theorem sub_eq : drift.submatrix [2, 0].get [2, 0].get = !![2, 0; 0, 1] ∧ drive.submatrix [2, 0].get [2, 0].get = !![0, 1; 1, 0] ∧
    weak.submatrix [2, 0].get [2, 0].get = !![0, 1; 1, 0] ∧ phase.submatrix [2, 0].get [2, 0].get = !![3, Complex.I; -Complex.I, 0] := by
  refine ⟨?_, ?_, ?_, ?_⟩ <;> ext i j <;> fin_cases i <;> fin_cases j <;> rfl

theorem leaves (L : Lapack (Fin 3)) (L' : Lapack (Fin 2)) (X : Matrix (Fin 3) (Fin 3) ℂ) (hX : X = drive ∨ X = weak) :
    LeavesOut [2, 0] (large L X) (small L') := by
  obtain ⟨h1, h2, h3, h4⟩ := sub_eq
  have hX' : X.submatrix [2, 0].get [2, 0].get = !![0, 1; 1, 0] := by rcases hX with rfl | rfl <;> assumption
  refine ⟨?_, ?_⟩
  · show List.replicate 4 _ = List.map _ (List.replicate 4 _)
    rw [List.map_replicate, h1]
  · show _ = List.map _ [X, phase]
    rw [List.map_cons, List.map_cons, List.map_nil, hX', h4]
    rfl

theorem stays (L : Lapack (Fin 3)) : StaysIn [2, 0] (large L drive) := by
  have key : ∀ H : Matrix (Fin 3) (Fin 3) ℂ, H 1 2 = 0 → H 1 0 = 0 → Closed [2, 0] (· ∈ ([2, 0] : List (Fin 3))) H := by
    intro H h1 h2 i hi j hj
    fin_cases i <;> fin_cases j <;> simp_all
  refine ⟨by decide, fun H hH => ?_, fun H hH => ?_⟩
  · obtain ⟨-, rfl⟩ := List.mem_replicate.mp hH
    exact key _ rfl rfl
  · simp only [large, List.mem_cons, List.not_mem_nil, or_false] at hH
    rcases hH with rfl | rfl <;> exact key _ rfl rfl

theorem herm (L : Lapack (Fin 3)) (X : Matrix (Fin 3) (Fin 3) ℂ) (hX : X = drive ∨ X = weak) :
    (∀ H ∈ (large L X).drift, H.IsHermitian) ∧ ∀ H ∈ (large L X).ctrl, H.IsHermitian := by
  refine ⟨fun H hH => ?_, fun H hH => ?_⟩
  · obtain ⟨-, rfl⟩ := List.mem_replicate.mp hH
    ext i j
    fin_cases i <;> fin_cases j <;> simp [drift]
  · simp only [large, List.mem_cons, List.not_mem_nil, or_false] at hH
    rcases hH with rfl | rfl
    · rcases hX with rfl | rfl <;> ext i j <;> fin_cases i <;> fin_cases j <;> simp [drive, weak]
    · ext i j
      fin_cases i <;> fin_cases j <;> simp [phase]

theorem closed_one (l : List (Fin 3)) : Closed l (· ∈ l) (1 : Matrix (Fin 3) (Fin 3) ℂ) := by
  intro i hi j hj
  rw [Matrix.one_apply_ne]
  rintro rfl
  exact hj hi

theorem sub_one : (1 : Matrix (Fin 2) (Fin 2) ℂ) = (1 : Matrix (Fin 3) (Fin 3) ℂ).submatrix [2, 0].get [2, 0].get := by
  ext i j
  fin_cases i <;> fin_cases j <;> rfl

noncomputable def sim {d : Type} [Fintype d] [DecidableEq d] (p : SPar d d) (cs : Option (List d)) (T : Matrix (CompIdx cs) (CompIdx cs) ℂ) (t : TF ℝ 2) : Sim 2 :=
  { solvers := [⟨2, t, .identity, 4, none, none⟩]
    costFuncs := [operationCost p [1, 1, 1, 1] (fun _ A => A) cs T false 0 "gate"]
    pulse := none, numTimes := none, numCtrl := none, numericJacobian := false }

example : ∃ (L : Lapack (Fin 3)) (L' : Lapack (Fin 2)) (t : TF ℝ 2) (v : List ℝ) (J : List (List (Fin 2 → ℝ))) (s r : Sim 2) (s' r' : Sim 2),
    (sim (large L drive) (some [2, 0]) (!![0, 1; -1, 0] : Matrix (Fin 2) (Fin 2) ℂ) t).wrappedCosts (some [fun _ => 1, fun _ => 2]) = .ok (s, v) ∧
    (sim (small L') none (!![0, 1; -1, 0] : Matrix (Fin 2) (Fin 2) ℂ) t).wrappedCosts (some [fun _ => 1, fun _ => 2]) = .ok (s', v) ∧
    (sim (large L drive) (some [2, 0]) (!![0, 1; -1, 0] : Matrix (Fin 2) (Fin 2) ℂ) t).wrappedJac (some [fun _ => 1, fun _ => 2]) = .ok (r, J) ∧
    (sim (small L') none (!![0, 1; -1, 0] : Matrix (Fin 2) (Fin 2) ℂ) t).wrappedJac (some [fun _ => 1, fun _ => 2]) = .ok (r', J) := by
  obtain ⟨L, -, -, hE, hF⟩ := lapack_exists (Fin 3)
  obtain ⟨L', -, -, hE', hF'⟩ := lapack_exists (Fin 2)
  obtain ⟨t, ht, hX⟩ := Ex104.tf_exists 2
  have h : Smaller 2 (sim (large L drive) (some [2, 0]) (!![0, 1; -1, 0] : Matrix (Fin 2) (Fin 2) ℂ) t)
      (sim (small L') none (!![0, 1; -1, 0] : Matrix (Fin 2) (Fin 2) ℂ) t) := by
    refine ⟨rfl, fun s hs => ?_, .cons ⟨rfl, _, rfl, ?_⟩ .nil, by simp [sim]⟩
    · simp only [sim, List.mem_singleton] at hs
      subst hs
      exact ⟨⟨.oversampling Ex93.base, _, trivial, ht, rfl, hX.symm⟩, trivial, fun y h => by simp at h⟩
    · exact .operation [2, 0] (by simp) (large L drive) (small L') _
        ⟨by simp [large], rfl, by simp, rfl, rfl, hE, hF, Or.inl ⟨rfl, rfl⟩⟩ ⟨by simp [small], rfl, by simp, rfl, rfl, hE', hF', Or.inl ⟨rfl, rfl⟩⟩
        (leaves L L' _ (Or.inl rfl)) (stays L) (closed_one _) sub_one rfl rfl _ _ false _ 0 "gate" rfl rfl
  obtain ⟨v, s, s', g1, g2⟩ := c144_costs _ _ h [fun _ => 1, fun _ => 2] rfl
  obtain ⟨J, r, r', g3, g4⟩ := c144_gradient (by norm_num) _ _ h rfl rfl [fun _ => 1, fun _ => 2] rfl
  exact ⟨L, L', t, v, J, s, r, s', r', g1, g2, g3, g4⟩

open scoped Matrix.Norms.L2Operator in
/-- `c144_error` applies to the drive with a weak coupling to the third level. -/
example (cl : Closest) : ∃ (L : Lapack (Fin 3)) (L' : Lapack (Fin 2)) (c c' : ℝ),
    (costOn (opCosts cl (some [2, 0]) (!![0, 1; -1, 0] : Matrix (Fin 2) (Fin 2) ℂ) false) (large L weak).bare.cfg
      (fresh (large L weak).bare.cfg [1, 1, 1, 1] (List.replicate 4 [1, 2]))).1 = .ok c ∧
    (costOn (opCosts cl none (!![0, 1; -1, 0] : Matrix (Fin 2) (Fin 2) ℂ) false) (small L').bare.cfg
      (fresh (small L').bare.cfg [1, 1, 1, 1] (List.replicate 4 [1, 2]))).1 = .ok c' ∧
    |√c - √c'| ≤ ((totals (large L weak) [1, 1, 1, 1] (List.replicate 4 [1, 2])).map fun x => |x.1| * ‖coupling [2, 0] x.2‖).sum := by
  obtain ⟨L, -, -, hE, -⟩ := lapack_exists (Fin 3)
  obtain ⟨L', -, -, hE', -⟩ := lapack_exists (Fin 2)
  obtain ⟨hd, hc⟩ := herm L weak (Or.inr rfl)
  have hT : (!![0, 1; -1, 0] : Matrix (Fin 2) (Fin 2) ℂ) ∈ Matrix.unitaryGroup (Fin 2) ℂ := by
    rw [Matrix.mem_unitaryGroup_iff]
    ext i j
    fin_cases i <;> fin_cases j <;> simp [Matrix.mul_apply, Matrix.star_apply]
  obtain ⟨c, c', e, g1, g2, -, -, -, g5, -⟩ := c144_error [2, 0] (by decide) (by simp) (large L weak) (small L') (leaves L L' _ (Or.inr rfl)) hd hc
    (one_mem _) (closed_one _) sub_one [1, 1, 1, 1] ⟨by simp [large], rfl, by simp, Or.inl ⟨rfl, rfl⟩, Or.inl ⟨rfl, hE⟩⟩
    ⟨by simp [small], rfl, by simp, Or.inl ⟨rfl, rfl⟩, Or.inl ⟨rfl, hE'⟩⟩ cl cl false _ hT (List.replicate 4 [1, 2]) (by simp) (by
      intro row hrow
      obtain ⟨-, rfl⟩ := List.mem_replicate.mp hrow
      rfl)
  exact ⟨L, L', c, c', g1, g2, g5⟩

/-- `c144_leakage` applies. -/
example (U : Fin 4 → Fin 2 → ℝ) : ∃ L : Lapack (Fin 3),
    (costOn (leakCosts [2, 0]) (large L drive).bare.cfg (fresh (large L drive).bare.cfg [1, 1, 1, 1] (rowsOf U))).1 = .ok 0 := by
  obtain ⟨L, -, -, hE, hF⟩ := lapack_exists (Fin 3)
  obtain ⟨hd, hc⟩ := herm L drive (Or.inl rfl)
  exact ⟨L, (c144_leakage [2, 0] (by simp) (large L drive) (stays L) hd hc (one_mem _) (closed_one _) [1, 1, 1, 1]
    ⟨by simp [large], rfl, by simp, rfl, rfl, hE, hF, Or.inl ⟨rfl, rfl⟩⟩ U).1⟩

end Ex144

end Verif.Sim
