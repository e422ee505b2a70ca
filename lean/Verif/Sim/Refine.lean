import Verif.Sim.Schroed

/-!
# C103: oversampling does not change the evolution

A pulse is constant during each of its time steps.  `OversamplingTF` divides the steps; the propagation by the finer steps must
agree with the one by the original steps, and so must everything computed from it.
-/

namespace Verif.Sim
open Verif Verif.Transfer Verif.Operator Verif.Solver Verif.Cost Matrix

variable {n m : Type} [Fintype n] [DecidableEq n] {q : Nat}

/-! ## Model -/

/-- The solver constructed with one drift Hamiltonian for all time steps: `h_drift = [H0]` is repeated to the number of
transferred time steps (solver_algorithms.py:329-334, `constructDrift`). -/
def _root_.Verif.Solver.SPar.withDrift (p : SPar n m) (H₀ : Matrix n n ℂ) (k : Nat) : SPar n m :=
  { p with drift := List.replicate k H₀ }

/-- The repetition is the one of the constructor. -/
theorem withDrift_construct (p : SPar n m) (H₀ : Matrix n n ℂ) (k : Nat) :
    constructDrift [H₀] k = .ok (p.withDrift H₀ k).drift := rfl

/-! ## Specification -/

/-- Specification: the methods that compute the matrix exponential itself: `expm` of scipy, or the spectral decomposition of
Hermitian Hamiltonians. -/
inductive ExactExp (p : SPar n m) (H₀ : Matrix n n ℂ) : Prop
  | frechet (hm : p.method = .frechet) (hL : p.L.ExpmOk)
  | spectral (hm : p.method = .spectral) (hs : p.skew = true) (hL : p.L.EighOk) (h0 : H₀.IsHermitian)
      (hc : ∀ H ∈ p.ctrl, H.IsHermitian)

/-- Specification: the evolution during a time `s` under constant amplitudes. -/
noncomputable def evolution (H₀ : Matrix n n ℂ) (ctrl : List (Matrix n n ℂ)) (u : Fin ctrl.length → ℝ) (s : ℝ) : Matrix n n ℂ :=
  NormedSpace.exp ((s : ℂ) • ((-Complex.I) • (H₀ + ∑ k : Fin ctrl.length, (u k : ℂ) • ctrl.get k)))

/-! ## Lemmas -/

/-- Propagation by a list of steps. -/
def runSteps (l : List (Matrix n n ℂ)) (F : Matrix n m ℂ) : Matrix n m ℂ := l.foldl (fun F P => P * F) F

theorem runSteps_append (a b : List (Matrix n n ℂ)) (F : Matrix n m ℂ) :
    runSteps (a ++ b) F = runSteps b (runSteps a F) := by simp [runSteps]

theorem runSteps_replicate (k : Nat) (P : Matrix n n ℂ) (F : Matrix n m ℂ) :
    runSteps (List.replicate k P) F = P ^ k * F := by
  induction k generalizing F with
  | zero => simp [runSteps]
  | succ k ih =>
    have : runSteps (List.replicate (k + 1) P) F = runSteps (List.replicate k P) (P * F) := by simp [runSteps, List.replicate_succ]
    rw [this, ih, pow_succ, Matrix.mul_assoc]

theorem isForward_run {init : Matrix n m ℂ} {ps : List (Matrix n n ℂ)} {f : List (Matrix n m ℂ)} (h : IsForward init ps f)
    (i : Nat) (hi : i ≤ ps.length) : f[i]? = some (runSteps (ps.take i) init) := by
  obtain ⟨-, h2, h3⟩ := h
  induction i with
  | zero => simpa [runSteps] using h2
  | succ i ih =>
    obtain ⟨F, e1, e2⟩ := h3 i (by omega)
    have h4 := ih (by omega)
    rw [e1] at h4
    simp only [Option.some.injEq] at h4
    rw [e2, List.take_add_one, List.getElem?_eq_getElem (by omega : i < ps.length), runSteps_append, ← h4]
    rfl

theorem take_npRepeat {α : Type} (r i : Nat) (l : List α) : (npRepeat r l).take (i * r) = npRepeat r (l.take i) := by
  induction l generalizing i with
  | nil => simp
  | cons a l ih =>
    cases i with
    | zero => simp
    | succ i =>
      have : (i + 1) * r = (List.replicate r a).length + i * r := by simp; ring
      rw [npRepeat_cons, this, List.take_append]
      simp [ih]

theorem zipWith_npRepeat {α β γ : Type} (f : α → β → γ) (r : Nat) (a : List α) (b : List β) :
    List.zipWith f (npRepeat r a) (npRepeat r b) = npRepeat r (List.zipWith f a b) := by
  induction a generalizing b with
  | nil => simp
  | cons x a ih =>
    cases b with
    | nil => simp
    | cons y b => simp only [npRepeat_cons, List.zipWith_cons_cons]; rw [List.zipWith_append (by simp), ih]; simp

theorem runSteps_npRepeat (r : Nat) (l l' : List (Matrix n n ℂ)) (h : l.map (· ^ r) = l') (F : Matrix n m ℂ) :
    runSteps (npRepeat r l) F = runSteps l' F := by
  subst h
  induction l generalizing F with
  | nil => rfl
  | cons P l ih =>
    rw [npRepeat_cons, runSteps_append, ih, runSteps_replicate]
    rfl

theorem hamiltonian_sum (H₀ : Matrix n n ℂ) (ctrl : List (Matrix n n ℂ)) (u : Fin ctrl.length → ℝ) :
    hamiltonian H₀ ctrl (List.ofFn u) = H₀ + ∑ k : Fin ctrl.length, (u k : ℂ) • ctrl.get k := by
  unfold hamiltonian
  congr 1
  rw [← List.sum_ofFn]
  congr 1
  refine List.ext_getElem (by simp) fun i h1 h2 => by simp

theorem step_eq {p : SPar n m} {H₀ : Matrix n n ℂ} (h : ExactExp p H₀) (k : Nat) (u : Fin p.ctrl.length → ℝ) (s : ℝ) :
    propOf (p.withDrift H₀ k).bare.cfg ((-Complex.I) • hamiltonian H₀ p.ctrl (List.ofFn u)) s = evolution H₀ p.ctrl u s := by
  unfold evolution
  rw [← hamiltonian_sum]
  cases h with
  | frechet hm hL =>
    have : propOf (p.withDrift H₀ k).bare.cfg ((-Complex.I) • hamiltonian H₀ p.ctrl (List.ofFn u)) s =
        p.L.expm ((s : ℂ) • ((-Complex.I) • hamiltonian H₀ p.ctrl (List.ofFn u))) := by
      unfold propOf dexpProp expProp
      have : (p.withDrift H₀ k).bare.cfg.method = .frechet := hm
      rw [this]
      split <;> rfl
    rw [this, hL]
  | spectral hm hs hL h0 hc =>
    have hH : (hamiltonian H₀ p.ctrl (List.ofFn u)).IsHermitian := by
      rw [hamiltonian_sum]
      refine h0.add ?_
      unfold Matrix.IsHermitian
      rw [Matrix.conjTranspose_sum]
      refine Finset.sum_congr rfl fun i _ => ?_
      rw [Matrix.conjTranspose_smul, (hc _ (List.get_mem _ _))]
      simp
    have hsp := c19_exponential p.L hL _ (skew_of_hermitian hH) (s : ℂ)
    unfold propOf dexpProp expProp
    have h1 : (p.withDrift H₀ k).bare.cfg.method = .spectral := hm
    have h2 : (p.withDrift H₀ k).bare.cfg.skew = true := hs
    have h3 : (p.withDrift H₀ k).bare.cfg.L = p.L := rfl
    rw [h1, h2, h3, hsp]
    simp only [Operator.exp, Except.ok.injEq] at hsp
    split
    · exact hsp
    · rfl

theorem evolution_pow (H₀ : Matrix n n ℂ) (ctrl : List (Matrix n n ℂ)) (u : Fin ctrl.length → ℝ) (s : ℝ) (r : Nat)
    (hr : 0 < r) : evolution H₀ ctrl u (s / r) ^ r = evolution H₀ ctrl u s := by
  unfold evolution
  rw [← Matrix.exp_nsmul, ← smul_assoc]
  congr 2
  rw [nsmul_eq_mul]
  push_cast
  rw [mul_div_cancel₀]
  exact_mod_cast hr.ne'

theorem steps_withDrift {p : SPar n m} {H₀ : Matrix n n ℂ} (h : ExactExp p H₀) (τ : List ℝ)
    (u : List (Fin p.ctrl.length → ℝ)) (hu : u.length = τ.length) :
    (p.withDrift H₀ τ.length).bare.steps τ (u.map fun r => List.ofFn r) = List.zipWith (evolution H₀ p.ctrl) u τ := by
  refine List.ext_getElem (by simp [SPar.steps, SPar.bare, hu]) fun i h1 h2 => ?_
  have hi : i < τ.length := by simpa [hu] using h2
  rw [List.getElem_zipWith]
  simp only [SPar.steps, List.getElem_map, List.getElem_range, SPar.step]
  have e1 : (p.withDrift H₀ τ.length).bare.drift.getD i 0 = H₀ := by
    show (List.replicate τ.length H₀).getD i 0 = H₀
    rw [List.getD_eq_getElem _ _ (by simpa using hi), List.getElem_replicate]
  have e2 : (u.map fun r => List.ofFn r).getD i [] = List.ofFn u[i] := by
    rw [List.getD_eq_getElem _ _ (by simpa [hu] using hi), List.getElem_map]
  have e3 : ((p.withDrift H₀ τ.length).bare.xTimes τ).getD i 0 = τ[i] := List.getD_eq_getElem _ _ hi
  rw [e1, e2, e3]
  exact step_eq h _ _ _

/-- What a new solver with the amplitudes `u` computes. -/
theorem fwd_of {p : SPar n m} {H₀ : Matrix n n ℂ} (h : ExactExp p H₀) (hc : p.ctrl ≠ []) (hst : Stable p.bare.cfg) (τ : List ℝ)
    (hτ : τ ≠ []) (u : List (Fin p.ctrl.length → ℝ)) (hu : u.length = τ.length) :
    ∃ f, (readFwd (p.withDrift H₀ τ.length).bare.cfg (fresh (p.withDrift H₀ τ.length).bare.cfg τ
      (u.map fun r => List.ofFn r))).1 = .ok f ∧ IsForward p.init (List.zipWith (evolution H₀ p.ctrl) u τ) f := by
  have hm : p.method ≠ .other := by cases h <;> simp_all
  have hne : u.map (fun r => List.ofFn r) ≠ [] := by
    intro h0
    rw [List.map_eq_nil_iff] at h0
    rw [h0] at hu
    exact hτ (List.length_eq_zero_iff.mp hu.symm)
  obtain ⟨r, e1, e2, e3, e4⟩ := idAmp_ok (u.map fun r => List.ofFn r) p.ctrl.length hne (by
    intro row hrow
    obtain ⟨v, -, rfl⟩ := List.mem_map.mp hrow
    simp)
  have ha := ampsOf_some (p.withDrift H₀ τ.length).bare.cfg τ _ _ r rfl e1 e2 (by rw [e4]; exact List.length_map _ |>.trans hu) e3
  rw [e4] at ha
  have hv : (p.withDrift H₀ τ.length).bare.Valid τ := ⟨hc, by simp [SPar.bare, SPar.withDrift], hm⟩
  obtain ⟨f, s', g1, g2, -⟩ := (ready_fresh _ τ _ _ ha).fwd hv hst
  rw [steps_withDrift h τ u hu] at g2
  exact ⟨f, by rw [g1], g2⟩

/-- The grid of `OversamplingTF` in one formula. -/
theorem xTimes_eq {b b' : Base ℝ} {τ σ : List ℝ} {ps pe : Nat} (h : b.setTimes τ = .ok b') (hx : b'.xTimes = some σ)
    (hp : specPadding b.bound b.oversampling = some (ps, pe)) (hτ : τ ≠ []) :
    σ = List.replicate ps (τ.headD 0 / b.oversampling) ++ npRepeat b.oversampling (τ.map (· / (b.oversampling : ℝ))) ++
      List.replicate pe (τ.getLastD 0 / b.oversampling) := by
  obtain ⟨bound, os, ny, yt, nx, xt⟩ := b
  obtain ⟨a, l, rfl⟩ := List.exists_cons_of_ne_nil hτ
  unfold Base.setTimes at h
  have hl : (a :: l).getLast? = some ((a :: l).getLastD 0) := by simp [List.getLast?_eq_some_getLast, List.getLastD]
  rcases bound with _ | ⟨code, k⟩
  · simp only [Except.ok.injEq] at h
    subst h
    simp only [Option.some.injEq] at hx
    simp only [specPadding, Option.some.injEq, Prod.mk.injEq] at hp
    rw [← hx, ← hp.1, ← hp.2, map_npRepeat]
    simp
  · cases code <;> simp only [hl, List.head?_cons, Except.ok.injEq] at h
    all_goals first
      | (subst h
         simp only [Option.some.injEq] at hx
         simp only [specPadding, Option.some.injEq, Prod.mk.injEq] at hp
         rw [← hx, ← hp.1, ← hp.2]
         simp [Nat.mul_comm])
      | simp at h

/-- What `OversamplingTF` returns, as a list. -/
theorem run_over {b : Base ℝ} {t : TF ℝ q} {τ : List ℝ} {ps pe : Nat} {y : Transfer.Pulse ℝ q}
    (h : (TF.oversampling b : TF ℝ q).setTimes τ = .ok t) (hp : specPadding b.bound b.oversampling = some (ps, pe))
    (hy : y.length = τ.length) :
    t.run y = .ok (List.replicate ps 0 ++ npRepeat b.oversampling y ++ List.replicate pe 0) := by
  simp only [TF.setTimes] at h
  obtain ⟨b', hb, h⟩ := TF.bind_ok h
  simp only [pure, Except.pure, Except.ok.injEq] at h
  subst h
  obtain ⟨x', ps', pe', hx, hyt, hn, hs, hpad, hl, hX⟩ := c01_grid_length b b' τ hb
  rw [hp] at hs
  simp only [Option.some.injEq, Prod.mk.injEq] at hs
  obtain ⟨rfl, rfl⟩ := hs
  have hos := (TF.setTimes_base hb).2
  rw [TF.run_oversampling, TF.checkRows_of hyt (by rw [hn, hy])]
  simp only [bind, Except.bind, oversamplingApply, hpad, pure, Except.pure, hos]

theorem evolution_zero (H₀ : Matrix n n ℂ) (ctrl : List (Matrix n n ℂ)) (u : Fin ctrl.length → ℝ) : evolution H₀ ctrl u 0 = 1 := by
  simp [evolution]

theorem evolution_nat (H₀ : Matrix n n ℂ) (ctrl : List (Matrix n n ℂ)) (u : Fin ctrl.length → ℝ) (s : ℝ) (k : Nat) :
    evolution H₀ ctrl u s ^ k = evolution H₀ ctrl u (k * s) := by
  unfold evolution
  rw [← Matrix.exp_nsmul, ← smul_assoc]
  congr 2
  rw [nsmul_eq_mul]
  push_cast
  rfl

theorem take_blocks {α : Type} (a : α) (k r i j : Nat) (l d : List α) (hi : i < l.length) (hj : j ≤ r) :
    (List.replicate k a ++ npRepeat r l ++ d).take (k + i * r + j) =
      List.replicate k a ++ npRepeat r (l.take i) ++ List.replicate j l[i] := by
  have h1 : (i + 1) * r ≤ r * l.length := by rw [Nat.mul_comm]; exact Nat.mul_le_mul_left _ hi
  have h2 : i * r + j ≤ (i + 1) * r := by rw [Nat.succ_mul]; omega
  rw [List.append_assoc, Nat.add_assoc, List.take_append, List.take_of_length_le (by simp), List.length_replicate,
    Nat.add_sub_cancel_left, List.take_append_of_le_length (by rw [length_npRepeat]; omega), List.append_assoc]
  congr 1
  rw [← List.take_append_drop (i * r) (npRepeat r l), drop_npRepeat, take_npRepeat, List.take_append]
  have h3 : (npRepeat r (l.take i)).length = i * r := by rw [length_npRepeat, List.length_take, min_eq_left hi.le, Nat.mul_comm]
  rw [h3, Nat.add_sub_cancel_left, List.take_of_length_le (by omega), List.drop_eq_getElem_cons hi, npRepeat_cons,
    List.take_append_of_le_length (by simpa using hj)]
  simp [hj]

/-! ## C103 -/

/-- **C103** The same pulse on a solver with one step per optimisation parameter and on a solver with `OversamplingTF`
(constant drift, amplitude function acting on each time step, exact exponentials): the fine solver first runs through the padding
with the amplitudes of a vanishing pulse, then agrees with the coarse solver (started from the state after the padding) at
every instant of every step, and finally runs through the padding at the end. -/
theorem c103_forward (p : SPar n m) (H₀ : Matrix n n ℂ) (h : ExactExp p H₀) (hc : p.ctrl ≠ []) (hst : Stable p.bare.cfg)
    (b : Base ℝ) (hos : 0 < b.oversampling) (t : TF ℝ q) (τ σ : List ℝ) (hτ : τ ≠ [])
    (ht : (TF.oversampling b : TF ℝ q).setTimes τ = .ok t) (hσ : t.base.xTimes = some σ) (ps pe : Nat)
    (hp : specPadding b.bound b.oversampling = some (ps, pe)) (w : (Fin q → ℝ) → Fin p.ctrl.length → ℝ)
    (y : Transfer.Pulse ℝ q) (hy : y.length = τ.length) :
    ∃ x f f', t.run y = .ok x ∧
      (readFwd (p.withDrift H₀ σ.length).bare.cfg (fresh (p.withDrift H₀ σ.length).bare.cfg σ
        ((x.map w).map fun r => List.ofFn r))).1 = .ok f' ∧
      (readFwd ({ p with init := evolution H₀ p.ctrl (w 0) (ps * (τ.headD 0 / b.oversampling)) * p.init }.withDrift H₀
          τ.length).bare.cfg
        (fresh ({ p with init := evolution H₀ p.ctrl (w 0) (ps * (τ.headD 0 / b.oversampling)) * p.init }.withDrift H₀
          τ.length).bare.cfg τ ((y.map w).map fun r => List.ofFn r))).1 = .ok f ∧
      f.length = τ.length + 1 ∧ f'.length = ps + b.oversampling * τ.length + pe + 1 ∧
      (∀ i ≤ ps, f'[i]? = some (evolution H₀ p.ctrl (w 0) (i * (τ.headD 0 / b.oversampling)) * p.init)) ∧
      (∀ i (hi : i < τ.length) j, j ≤ b.oversampling → ∃ F, f[i]? = some F ∧ f'[ps + i * b.oversampling + j]? =
        some (evolution H₀ p.ctrl (w (y[i]'(by omega))) (j * (τ[i] / b.oversampling)) * F)) ∧
      (∀ i ≤ τ.length, f'[ps + i * b.oversampling]? = f[i]?) ∧
      ∀ i ≤ pe, ∃ F, f[τ.length]? = some F ∧ f'[ps + τ.length * b.oversampling + i]? =
        some (evolution H₀ p.ctrl (w 0) (i * (τ.getLastD 0 / b.oversampling)) * F) := by
  have hos' : (b.oversampling : ℝ) ≠ 0 := by exact_mod_cast hos.ne'
  have hσ' := hσ
  have hx := run_over ht hp hy
  obtain ⟨b', hb, hσ1⟩ : ∃ b', b.setTimes τ = .ok b' ∧ b'.xTimes = some σ := by
    simp only [TF.setTimes] at ht
    obtain ⟨b', hb, e⟩ := TF.bind_ok ht
    simp only [pure, Except.pure, Except.ok.injEq] at e
    subst e
    exact ⟨b', hb, hσ⟩
  have hgrid := xTimes_eq hb hσ1 hp hτ
  set x := List.replicate ps (0 : Fin q → ℝ) ++ npRepeat b.oversampling y ++ List.replicate pe 0 with hxd
  have hxl : (x.map w).length = σ.length := by
    rw [hgrid, hxd]
    simp [hy]
  have hσne : σ ≠ [] := by
    intro h0
    have : σ.length = 0 := by rw [h0]; rfl
    rw [hgrid] at this
    simp only [List.length_append, List.length_replicate, length_npRepeat, List.length_map] at this
    have h1 : 0 < τ.length := List.length_pos_iff.mpr hτ
    have := Nat.mul_pos hos h1
    omega
  obtain ⟨f', e1, e2⟩ := fwd_of h hc hst σ hσne (x.map w) hxl
  let p₁ : SPar n m := { p with init := evolution H₀ p.ctrl (w 0) (ps * (τ.headD 0 / b.oversampling)) * p.init }
  have h₁ : ExactExp p₁ H₀ := by
    cases h with
    | frechet a b => exact .frechet a b
    | spectral a b c d e => exact .spectral a b c d e
  obtain ⟨f, e3, e4⟩ := fwd_of h₁ hc hst τ hτ (y.map w) (by simpa using hy)
  set E0 := evolution H₀ p.ctrl (w 0) (τ.headD 0 / b.oversampling) with hE0
  set E1 := evolution H₀ p.ctrl (w 0) (τ.getLastD 0 / b.oversampling) with hE1
  set L := List.zipWith (evolution H₀ p.ctrl) (y.map w) (τ.map (· / (b.oversampling : ℝ))) with hL
  have hLl : L.length = τ.length := by simp [hL, hy]
  have hfine : List.zipWith (evolution H₀ p.ctrl) (x.map w) σ =
      List.replicate ps E0 ++ npRepeat b.oversampling L ++ List.replicate pe E1 := by
    rw [hgrid, hxd, List.map_append, List.map_append, List.zipWith_append (by simp [hy]), List.zipWith_append (by simp [hy]),
      map_npRepeat, zipWith_npRepeat]
    simp [hL, hE0, hE1]
  have hpow : ∀ i, L.map (· ^ b.oversampling) = List.zipWith (evolution H₀ p.ctrl) (y.map w) τ ∧
      (L.take i).map (· ^ b.oversampling) = (List.zipWith (evolution H₀ p.ctrl) (y.map w) τ).take i := by
    intro i
    have : L.map (· ^ b.oversampling) = List.zipWith (evolution H₀ p.ctrl) (y.map w) τ := by
      refine List.ext_getElem (by simp [hL]) fun k h1 h2 => ?_
      simp only [hL, List.getElem_map, List.getElem_zipWith]
      exact evolution_pow _ _ _ _ _ hos
    exact ⟨this, by rw [List.map_take, this]⟩
  have hrun := fun k (hk : k ≤ _) => isForward_run e2 k hk
  rw [hfine] at hrun
  have hcoarse := fun i (hi : i ≤ τ.length) => isForward_run e4 i (by simpa [hy] using hi)
  have hpad : runSteps (List.replicate ps E0) p.init = p₁.init := by
    rw [runSteps_replicate, hE0, evolution_nat]
  have hlen : (List.replicate ps E0 ++ npRepeat b.oversampling L ++ List.replicate pe E1).length =
      ps + b.oversampling * τ.length + pe := by simp [hLl]; omega
  have hin : ∀ i (hi : i < τ.length) j, j ≤ b.oversampling → ∃ F, f[i]? = some F ∧ f'[ps + i * b.oversampling + j]? =
        some (evolution H₀ p.ctrl (w (y[i]'(by omega))) (j * (τ[i] / b.oversampling)) * F) := by
    intro i hi j hj
    refine ⟨_, hcoarse i hi.le, ?_⟩
    rw [hrun _ (by
      rw [hlen]
      have h1 : (i + 1) * b.oversampling ≤ b.oversampling * τ.length := by rw [Nat.mul_comm]; exact Nat.mul_le_mul_left _ hi
      rw [Nat.succ_mul] at h1
      omega), take_blocks _ _ _ _ _ _ _ (by omega) hj, runSteps_append, runSteps_append, hpad,
      runSteps_npRepeat _ _ _ (hpow i).2, runSteps_replicate]
    congr 2
    simp only [hL, List.getElem_zipWith, List.getElem_map]
    exact evolution_nat _ _ _ _ _
  have hend : ∀ i ≤ pe, ∃ F, f[τ.length]? = some F ∧ f'[ps + τ.length * b.oversampling + i]? =
        some (evolution H₀ p.ctrl (w 0) (i * (τ.getLastD 0 / b.oversampling)) * F) := by
    intro i hi
    refine ⟨_, hcoarse τ.length le_rfl, ?_⟩
    have h1 : (List.replicate ps E0 ++ npRepeat b.oversampling L).length = ps + τ.length * b.oversampling := by
      simp [hLl, Nat.mul_comm]
    rw [hrun _ (by rw [hlen, Nat.mul_comm]; omega), List.take_append, h1, Nat.add_sub_cancel_left,
      List.take_of_length_le (by rw [h1]; omega), List.take_replicate, min_eq_left hi, runSteps_append, runSteps_append, hpad,
      runSteps_npRepeat _ _ _ (hpow 0).1, runSteps_replicate, hE1, evolution_nat]
    rw [List.take_of_length_le (by simp [hy])]
  refine ⟨x, f, f', hx, e1, e3, by simpa [hy] using e4.1, ?_, ?_, hin, ?_, hend⟩
  · have := e2.1
    rw [hfine, hlen] at this
    exact this
  · intro i hi
    rw [hrun _ (by rw [hlen]; omega), List.append_assoc, List.take_append_of_le_length (by simpa using hi), List.take_replicate,
      min_eq_left hi, runSteps_replicate, hE0, evolution_nat]
  · intro i hi
    rcases Nat.lt_or_ge i τ.length with hlt | hge
    · obtain ⟨F, g1, g2⟩ := hin i hlt 0 (by omega)
      rw [g1]
      simpa [evolution_zero] using g2
    · obtain rfl : i = τ.length := by omega
      obtain ⟨F, g1, g2⟩ := hend 0 (by omega)
      rw [g1]
      simpa [evolution_zero] using g2

/-- Specification: a solver whose derivatives are exact, up to the drift. -/
structure ExactPar (p : SPar n m) : Prop where
  ctrl : p.ctrl ≠ []
  method : p.method = .frechet
  approx : p.approx = .none
  expm : p.L.ExpmOk
  frechet : p.L.FrechetOk
  stable : Stable p.bare.cfg

theorem ExactPar.exact {p : SPar n m} (h : ExactPar p) (H₀ : Matrix n n ℂ) (τ : List ℝ) (hτ : τ ≠ []) :
    Exact (p.withDrift H₀ τ.length) τ :=
  ⟨h.ctrl, by simp [SPar.withDrift], hτ, h.method, h.approx, h.expm, h.frechet, h.stable⟩

/-- Specification: the amplitude function acts on each time step in the same way. -/
def AmpFunc.Rowwise {c : Nat} (a : AmpFunc q c) (w : (Fin q → ℝ) → Fin c → ℝ) : Prop := ∀ x, a.call x = x.map w

/-- Specification: two new solver objects for pulses on the grid `τ` that differ by oversampling without padding. -/
structure Twin (τ σ : List ℝ) (s s' : SolverObj q) : Prop where
  obj : ∃ (c : Nat) (a : AmpFunc q c) (w : (Fin q → ℝ) → Fin c → ℝ) (b : Base ℝ) (t t' : TF ℝ q),
    a.Correct ∧ a.Rowwise w ∧ b.bound = none ∧ 0 < b.oversampling ∧
    (TF.identity (Base.init ℝ none 1) : TF ℝ q).setTimes τ = .ok t ∧ (TF.oversampling b : TF ℝ q).setTimes τ = .ok t' ∧
    t'.base.xTimes = some σ ∧ s = ⟨c, t, a, τ.length, none, none⟩ ∧ s' = ⟨c, t', a, σ.length, none, none⟩

/-- Specification: the same infidelity of the same system with constant drift on the two grids. -/
inductive SameCost (τ σ : List ℝ) (c : Nat) (F F' : CostFn q) : Prop
  | operation {n : Type} [Fintype n] [DecidableEq n] (p : SPar n n) (H₀ : Matrix n n ℂ) (h : ExactPar p) (hc : c = p.ctrl.length)
      (cl : Closest) (cs : Option (List n)) (hcs : cs ≠ some []) (mcu : Bool) (hm : mcu = false ∨ cs = none)
      (T : Matrix (CompIdx cs) (CompIdx cs) ℂ) (i : Nat) (label : String)
      (hF : F = operationCost (p.withDrift H₀ τ.length) τ cl cs T mcu i label)
      (hF' : F' = operationCost (p.withDrift H₀ σ.length) σ cl cs T mcu i label)
  | state {n : Type} [Fintype n] [DecidableEq n] (p : SPar n (Fin 1)) (H₀ : Matrix n n ℂ) (h : ExactPar p)
      (hc : c = p.ctrl.length) (cs : Option (List n)) (hcs : cs ≠ some []) (T : Matrix (Fin 1) (CompIdx cs) ℂ) (r : Bool)
      (i : Nat) (label : String) (hF : F = stateCost (p.withDrift H₀ τ.length) τ cs T r i label)
      (hF' : F' = stateCost (p.withDrift H₀ σ.length) σ cs T r i label)
  | leakage {n : Type} [Fintype n] [DecidableEq n] (p : SPar n n) (H₀ : Matrix n n ℂ) (h : ExactPar p) (hc : c = p.ctrl.length)
      (h0 : H₀.IsHermitian) (hcH : ∀ H ∈ p.ctrl, H.IsHermitian) (hi : p.init ∈ Matrix.unitaryGroup n ℂ) (l : List n)
      (hl : l.Nodup) (hne : l ≠ []) (i : Nat) (label : String)
      (hF : F = leakageCost (p.withDrift H₀ τ.length) τ l i label)
      (hF' : F' = leakageCost (p.withDrift H₀ σ.length) σ l i label)

/-- Specification: simulators that differ by the oversampling of their solvers only. -/
structure Finer (τ : List ℝ) (sim sim' : Sim q) : Prop where
  solvers : List.Forall₂ (fun s s' => ∃ σ, Twin τ σ s s') sim.solvers sim'.solvers
  costs : List.Forall₂ (fun F F' => F.solver = F'.solver ∧ ∃ σ s s', sim.solvers[F.solver]? = some s ∧
    sim'.solvers[F'.solver]? = some s' ∧ Twin τ σ s s' ∧ SameCost τ σ s.c F F') sim.costFuncs sim'.costFuncs
  nonempty : sim.costFuncs ≠ []

theorem last_eq {f f' : List (Matrix n m ℂ)} {k k' : Nat} (h1 : f.length = k + 1) (h2 : f'.length = k' + 1)
    (h : f'[k']? = f[k]?) : last f' = last f := by
  unfold last
  rw [List.getLast?_eq_getElem?, List.getLast?_eq_getElem?, h1, h2]
  simp only [Nat.add_sub_cancel]
  rw [h]

theorem solverCost_same {p : SPar n m} {H₀ : Matrix n n ℂ} (h : ExactPar p) {τ σ : List ℝ} (hτ : τ ≠ []) {b : Base ℝ}
    (hb : b.bound = none) (hos : 0 < b.oversampling) {t' : TF ℝ q} (ht' : (TF.oversampling b : TF ℝ q).setTimes τ = .ok t')
    (hσ : t'.base.xTimes = some σ) (w : (Fin q → ℝ) → Fin p.ctrl.length → ℝ) (y : Transfer.Pulse ℝ q)
    (hy : y.length = τ.length) (x : Transfer.Pulse ℝ q) (hx : t'.run y = .ok x)
    (costF : List (Matrix n m ℂ) → Except PyErr ℝ) (hlast : ∀ f f', last f = last f' → costF f = costF f') :
    (costOn costF (p.withDrift H₀ τ.length).bare.cfg (fresh (p.withDrift H₀ τ.length).bare.cfg τ
        ((y.map w).map fun r => List.ofFn r))).1 =
      (costOn costF (p.withDrift H₀ σ.length).bare.cfg (fresh (p.withDrift H₀ σ.length).bare.cfg σ
        ((x.map w).map fun r => List.ofFn r))).1 := by
  obtain ⟨x', f, f', g1, g2, g3, g4, g5, -, -, g8, -⟩ := c103_forward p H₀ (.frechet h.method h.expm) h.ctrl h.stable b hos t' τ σ
    hτ ht' hσ 0 0 (by rw [hb]; rfl) w y hy
  rw [hx] at g1
  simp only [Except.ok.injEq] at g1
  subst g1
  have e : ({ p with init := evolution H₀ p.ctrl (w 0) ((0 : Nat) * (τ.headD 0 / b.oversampling)) * p.init } : SPar n m) = p := by
    rw [Nat.cast_zero, zero_mul, evolution_zero, Matrix.one_mul]
  rw [e] at g3
  have hl := last_eq g4 g5 (by
    have := g8 τ.length le_rfl
    rw [← this, Nat.mul_comm])
  unfold costOn
  cases r1 : readFwd (p.withDrift H₀ τ.length).bare.cfg (fresh (p.withDrift H₀ τ.length).bare.cfg τ
        ((y.map w).map fun r => List.ofFn r)) with
  | mk a1 s1 =>
  cases r2 : readFwd (p.withDrift H₀ σ.length).bare.cfg (fresh (p.withDrift H₀ σ.length).bare.cfg σ
        ((x.map w).map fun r => List.ofFn r)) with
  | mk a2 s2 =>
  rw [r1] at g3
  rw [r2] at g2
  simp only at g2 g3
  subst g2 g3
  exact hlast _ _ hl.symm

theorem Twin.grid {τ σ : List ℝ} {s s' : SolverObj q} (h : Twin τ σ s s') (hτ : τ ≠ []) : σ ≠ [] := by
  obtain ⟨c, a, w, b, t, t', -, -, hb, hos, -, ht', hσ, -, -⟩ := h.obj
  simp only [TF.setTimes] at ht'
  obtain ⟨b', hb', e⟩ := TF.bind_ok ht'
  simp only [pure, Except.pure, Except.ok.injEq] at e
  subst e
  rw [xTimes_eq hb' hσ (by rw [hb]; rfl) hτ]
  intro h0
  have := congrArg List.length h0
  simp only [List.length_append, List.length_replicate, length_npRepeat, List.length_map, List.length_nil] at this
  have := Nat.mul_pos hos (List.length_pos_iff.mpr hτ)
  omega

theorem Twin.assembled {τ σ : List ℝ} {s s' : SolverObj q} (h : Twin τ σ s s') : Assembled s τ.length ∧ Assembled s' τ.length := by
  obtain ⟨c, a, w, b, t, t', ha, -, hb, hos, ht, ht', hσ, rfl, rfl⟩ := h.obj
  refine ⟨⟨⟨_, τ, ?_, ht, rfl, ?_⟩, ha, fun y h => by simp at h⟩, ⟨⟨_, τ, ?_, ht', rfl, ?_⟩, ha, fun y h => by simp at h⟩⟩
  · exact ⟨rfl, rfl⟩
  · simp only [TF.setTimes] at ht
    obtain ⟨b', hb', e⟩ := TF.bind_ok ht
    simp only [pure, Except.pure, Except.ok.injEq] at e
    subst e
    obtain ⟨x', ps', pe', hx, -, -, hs, -, hl, hX⟩ := c01_grid_length _ b' τ hb'
    simp only [Base.init, specPadding, Option.some.injEq, Prod.mk.injEq] at hs
    show τ.length = b'.numX
    rw [hX, ← hs.1, ← hs.2]
    simp [Base.init]
  · trivial
  · simp only [TF.setTimes] at ht'
    obtain ⟨b', hb', e⟩ := TF.bind_ok ht'
    simp only [pure, Except.pure, Except.ok.injEq] at e
    subst e
    obtain ⟨x', ps', pe', hx, -, -, hs, -, hl, hX⟩ := c01_grid_length _ b' τ hb'
    have hσ' : b'.xTimes = some σ := hσ
    rw [hσ'] at hx
    simp only [Option.some.injEq] at hx
    rw [hx]
    exact hl

theorem SameCost.infidelity {τ σ : List ℝ} {s s' : SolverObj q} {F F' : CostFn q} (h : Twin τ σ s s') (hτ : τ ≠ [])
    (hF : SameCost τ σ s.c F F') : Infidelity F s ∧ Infidelity F' s' := by
  have hσ := h.grid hτ
  obtain ⟨c, a, w, b, t, t', -, -, -, -, -, -, -, rfl, rfl⟩ := h.obj
  cases hF with
  | operation p H₀ h hc cl cs hcs mcu hm T i label hF hF' =>
    exact ⟨.operation _ τ (h.exact H₀ τ hτ) hc rfl cl cs hcs mcu hm T i label hF,
      .operation _ σ (h.exact H₀ σ hσ) hc rfl cl cs hcs mcu hm T i label hF'⟩
  | state p H₀ h hc cs hcs T r i label hF hF' =>
    exact ⟨.state _ τ (h.exact H₀ τ hτ) hc rfl cs hcs T r i label hF, .state _ σ (h.exact H₀ σ hσ) hc rfl cs hcs T r i label hF'⟩
  | leakage p H₀ h hc h0 hcH hi l hl hne i label hF hF' =>
    exact ⟨.leakage _ τ (h.exact H₀ τ hτ) hc rfl (fun H hH => by rw [List.eq_of_mem_replicate hH]; exact h0) hcH hi l hl hne i
      label hF, .leakage _ σ (h.exact H₀ σ hσ) hc rfl (fun H hH => by rw [List.eq_of_mem_replicate hH]; exact h0) hcH hi l hl hne
      i label hF'⟩

/-- The costs of the two objects after the same pulse was set. -/
theorem SameCost.costs_eq {τ σ : List ℝ} {s s' s₁ s₁' : SolverObj q} {F F' : CostFn q} (h : Twin τ σ s s') (hτ : τ ≠ [])
    (hF : SameCost τ σ s.c F F') (y : Transfer.Pulse ℝ q) (hy : y.length = τ.length) (h1 : s.setPars y = .ok s₁)
    (h2 : s'.setPars y = .ok s₁') : F.costs s₁ = F'.costs s₁' := by
  obtain ⟨hA, hA'⟩ := h.assembled
  obtain ⟨tf, x, -, hx, hl, rfl⟩ := setPars_ok hA.coherent h1
  obtain ⟨tf', x', -, hx', hl', rfl⟩ := setPars_ok hA'.coherent h2
  obtain ⟨c, a, w, b, t, t', ha, hw, hb, hos, ht, ht', hσ, rfl, rfl⟩ := h.obj
  have hxy : x = y := by
    simp only [TF.setTimes] at ht
    obtain ⟨b', hb', e⟩ := TF.bind_ok ht
    simp only [pure, Except.pure, Except.ok.injEq] at e
    subst e
    simpa [TF.run_identity] using hx.symm
  subst hxy
  simp only [SolverObj.withAmps]
  rw [hw x, hw x']
  cases hF with
  | operation p H₀ hp hc cl cs hcs mcu hm T i label hF hF' =>
    simp only at hc
    subst hc hF hF'
    refine congrArg (Except.map fun x : ℝ => [x]) (solverCost_same (H₀ := H₀) hp hτ hb hos ht' hσ w x hy x' hx' _ ?_)
    intro f f' e
    simp only [opCosts, e]
  | state p H₀ hp hc cs hcs T r i label hF hF' =>
    simp only at hc
    subst hc hF hF'
    refine congrArg (Except.map fun x : ℝ => [x]) (solverCost_same (H₀ := H₀) hp hτ hb hos ht' hσ w x hy x' hx' _ ?_)
    intro f f' e
    simp only [stateCosts, e]
  | leakage p H₀ hp hc h0 hcH hi l hl hne i label hF hF' =>
    simp only at hc
    subst hc hF hF'
    refine congrArg (Except.map fun x : ℝ => [x]) (solverCost_same (H₀ := H₀) hp hτ hb hos ht' hσ w x hy x' hx' _ ?_)
    intro f f' e
    simp only [leakCosts, e]

theorem costLoop_same {τ : List ℝ} (hτ : τ ≠ []) {S S' ss ss' : List (SolverObj q)} (y : Transfer.Pulse ℝ q)
    (hy : y.length = τ.length) (h1 : Sim.setSolvers S y = .ok ss) (h2 : Sim.setSolvers S' y = .ok ss')
    {Fs Fs' : List (CostFn q)} (h : List.Forall₂ (fun F F' => F.solver = F'.solver ∧ ∃ σ s s', S[F.solver]? = some s ∧
      S'[F'.solver]? = some s' ∧ Twin τ σ s s' ∧ SameCost τ σ s.c F F') Fs Fs') :
    Sim.costLoop ss Fs = Sim.costLoop ss' Fs' := by
  induction h with
  | nil => rfl
  | cons hF _ ih =>
    obtain ⟨-, σ, s, s', e1, e2, e3, e4⟩ := hF
    obtain ⟨s₁, g1, g2⟩ := setSolvers_get' h1 e1
    obtain ⟨s₁', g3, g4⟩ := setSolvers_get' h2 e2
    simp only [Sim.costLoop, g1, g3, bind, Except.bind, e4.costs_eq e3 hτ y hy g2 g4, ih]

theorem Finer.assembled {τ : List ℝ} {sim sim' : Sim q} (h : Finer τ sim sim') :
    (∀ s ∈ sim.solvers, Assembled s τ.length) ∧ ∀ s ∈ sim'.solvers, Assembled s τ.length := by
  have := h.solvers
  clear h
  generalize sim.solvers = S at *
  generalize sim'.solvers = S' at *
  induction this with
  | nil => simp
  | cons hs _ ih =>
    obtain ⟨σ, hs⟩ := hs
    obtain ⟨a1, a2⟩ := hs.assembled
    refine ⟨fun s hs => ?_, fun s hs => ?_⟩ <;> rcases List.mem_cons.mp hs with rfl | hs
    · exact a1
    · exact ih.1 s hs
    · exact a2
    · exact ih.2 s hs

theorem Finer.infidelity {τ : List ℝ} {sim sim' : Sim q} (h : Finer τ sim sim') (hτ : τ ≠ []) :
    (∀ F ∈ sim.costFuncs, ∃ s, sim.solvers[F.solver]? = some s ∧ Infidelity F s) ∧
    ∀ F ∈ sim'.costFuncs, ∃ s, sim'.solvers[F.solver]? = some s ∧ Infidelity F s := by
  have := h.costs
  clear h
  generalize sim.costFuncs = S at *
  generalize sim'.costFuncs = S' at *
  induction this with
  | nil => simp
  | cons hs _ ih =>
    obtain ⟨-, σ, s, s', e1, e2, e3, e4⟩ := hs
    obtain ⟨a1, a2⟩ := e4.infidelity e3 hτ
    refine ⟨fun s hs => ?_, fun s hs => ?_⟩ <;> rcases List.mem_cons.mp hs with rfl | hs
    · exact ⟨_, e1, a1⟩
    · exact ih.1 s hs
    · exact ⟨_, e2, a2⟩
    · exact ih.2 s hs

theorem costLoop_ok {N : Nat} {S ss : List (SolverObj q)} (hA : ∀ s ∈ S, Assembled s N) (y : Transfer.Pulse ℝ q)
    (h : Sim.setSolvers S y = .ok ss) (Fs : List (CostFn q))
    (hF : ∀ F ∈ Fs, ∃ s, S[F.solver]? = some s ∧ Infidelity F s) : ∃ v, Sim.costLoop ss Fs = .ok v ∧ v.length = Fs.length := by
  induction Fs with
  | nil => exact ⟨[], rfl, rfl⟩
  | cons F Fs ih =>
    obtain ⟨v, h1, h2⟩ := ih fun G hG => hF G (by simp [hG])
    obtain ⟨s, e1, e2⟩ := hF F (by simp)
    obtain ⟨s₁, g1, g2⟩ := setSolvers_get' h e1
    obtain ⟨tf, x, -, -, hl, rfl⟩ := setPars_ok (hA s (List.mem_of_getElem? e1)).coherent g2
    obtain ⟨Φ, hΦ, -⟩ := e2.correct.1
    refine ⟨Φ (s.amp.call x) :: v, ?_, by simp [h2]⟩
    simp only [Sim.costLoop, g1, hΦ _ _ _ hl, h1, bind, Except.bind, pure, Except.pure]

/-- **C103** Simulators that differ by the oversampling of their solvers only (constant drift, amplitude functions acting on each
time step, any non-empty list of operation, state and leakage infidelities) return the same costs for every pulse. -/
theorem c103_costs (τ : List ℝ) (hτ : τ ≠ []) (sim sim' : Sim q) (h : Finer τ sim sim') (y : Transfer.Pulse ℝ q)
    (hy : y.length = τ.length) :
    ∃ v s s', sim.wrappedCosts (some y) = .ok (s, v) ∧ sim'.wrappedCosts (some y) = .ok (s', v) := by
  obtain ⟨hA, hA'⟩ := h.assembled
  obtain ⟨ss, hss⟩ := setSolvers_of (y := y) fun s h => by
    obtain ⟨⟨x, hx, -, hl⟩, -⟩ := (hA s h).run y hy
    exact setPars_of hx hl
  obtain ⟨ss', hss'⟩ := setSolvers_of (y := y) fun s h => by
    obtain ⟨⟨x, hx, -, hl⟩, -⟩ := (hA' s h).run y hy
    exact setPars_of hx hl
  have hloop := costLoop_same hτ y hy hss hss' h.costs
  obtain ⟨v, hv, hvl⟩ := costLoop_ok hA y hss sim.costFuncs (h.infidelity hτ).1
  obtain ⟨r, hr⟩ : ∃ r, Sim.concatenate0 v = .ok r := by
    cases v with
    | nil => exact absurd (List.length_eq_zero_iff.mp hvl.symm) h.nonempty
    | cons a l => exact ⟨_, rfl⟩
  refine ⟨r, { sim with solvers := ss }, { sim' with solvers := ss' }, ?_, ?_⟩
  · simp only [Sim.wrappedCosts, Sim.given, hss, bind, Except.bind, hv, hr, pure, Except.pure]
  · simp only [Sim.wrappedCosts, Sim.given, hss', bind, Except.bind, ← hloop, hv, hr, pure, Except.pure]

/-- Simulators with the same costs for all pulses of a length have the same gradients. -/
theorem jac_unique {sim sim' : Sim q} (hn : sim.numericJacobian = false) (hn' : sim'.numericJacobian = false) (hq : 0 < q)
    (y : Transfer.Pulse ℝ q) (hA : ∀ s ∈ sim.solvers, Assembled s y.length) (hA' : ∀ s ∈ sim'.solvers, Assembled s y.length)
    (hne : sim.costFuncs ≠ []) (hne' : sim'.costFuncs ≠ [])
    (hF : ∀ F ∈ sim.costFuncs, ∃ s, sim.solvers[F.solver]? = some s ∧ Infidelity F s)
    (hF' : ∀ F ∈ sim'.costFuncs, ∃ s, sim'.solvers[F.solver]? = some s ∧ Infidelity F s)
    (hc : ∀ z : Transfer.Pulse ℝ q, z.length = y.length →
      ∃ v s s', sim.wrappedCosts (some z) = .ok (s, v) ∧ sim'.wrappedCosts (some z) = .ok (s', v)) :
    ∃ J s s', sim.wrappedJac (some y) = .ok (s, J) ∧ sim'.wrappedJac (some y) = .ok (s', J) := by
  obtain ⟨s, J, e1, e2, e3⟩ := c93_gradient sim y hn hA hne hF
  obtain ⟨s', J', e1', e2', e3'⟩ := c93_gradient sim' y hn' hA' hne' hF'
  suffices hJ : J = J' by
    subst hJ
    exact ⟨J, s, s', e1, e1'⟩
  have hrow : ∀ t, t < y.length → J.getD t [] = J'.getD t [] := by
    intro t ht
    have key : ∀ j, (J.getD t []).length = (J'.getD t []).length ∧ ∀ i, (J.getD t []).getD i 0 j = (J'.getD t []).getD i 0 j := by
      intro j
      obtain ⟨C, c1, c2, c3⟩ := e3 t ht j
      obtain ⟨C', c1', c2', c3'⟩ := e3' t ht j
      have hC : C = C' := by
        funext x
        obtain ⟨v, a, a', g1, g2⟩ := hc (shift y t j x) (shift_length ..)
        obtain ⟨k, hk⟩ := c1 x
        obtain ⟨k', hk'⟩ := c1' x
        rw [hk] at g1
        rw [hk'] at g2
        simp only [Except.ok.injEq, Prod.mk.injEq] at g1 g2
        rw [g1.2, g2.2]
      subst hC
      exact ⟨by rw [← c2 0, ← c2' 0], fun i => (c3 i).unique (c3' i)⟩
    refine List.ext_getElem (key ⟨0, hq⟩).1 fun i h1 h2 => ?_
    funext j
    have := (key j).2 i
    rwa [List.getD_eq_getElem _ _ h1, List.getD_eq_getElem _ _ h2] at this
  refine List.ext_getElem (by rw [e2, e2']) fun t h1 h2 => ?_
  have := hrow t (by omega)
  rwa [List.getD_eq_getElem _ _ h1, List.getD_eq_getElem _ _ h2] at this

/-- **C103** ... and the same gradients (for pulses with at least one parameter per step). -/
theorem c103_gradient (τ : List ℝ) (hτ : τ ≠ []) (sim sim' : Sim q) (h : Finer τ sim sim') (hn : sim.numericJacobian = false)
    (hn' : sim'.numericJacobian = false) (hq : 0 < q) (y : Transfer.Pulse ℝ q) (hy : y.length = τ.length) :
    ∃ J s s', sim.wrappedJac (some y) = .ok (s, J) ∧ sim'.wrappedJac (some y) = .ok (s', J) := by
  obtain ⟨hA, hA'⟩ := h.assembled
  obtain ⟨hF, hF'⟩ := h.infidelity hτ
  have hne' : sim'.costFuncs ≠ [] := by
    intro h0
    have := h.costs.length_eq
    rw [h0] at this
    exact h.nonempty (List.length_eq_zero_iff.mp this)
  exact jac_unique hn hn' hq y (by rw [hy]; exact hA) (by rw [hy]; exact hA') h.nonempty hne' hF hF' fun z hz =>
    c103_costs τ hτ sim sim' h z (hz.trans hy)

/-! ### A case of C103 -/

namespace Ex103

/-- A qubit and two infidelities of it; the solvers are constructed for the grid `σ`. -/
noncomputable def sim (L : Lapack (Fin 2)) (tf : TF ℝ 2) (σ : List ℝ) : Sim 2 :=
  { solvers := [⟨2, tf, .unary Real.sin Real.cos, σ.length, none, none⟩, ⟨2, tf, .identity, σ.length, none, none⟩]
    costFuncs := [operationCost ((Ex93.par L).withDrift !![1, 0; 0, -1] σ.length) σ (fun _ A => A) none !![0, 1; 1, 0] false 0
        "gate", leakageCost ((Ex93.par L).withDrift !![1, 0; 0, -1] σ.length) σ [0] 1 "leakage"]
    pulse := none, numTimes := none, numCtrl := none, numericJacobian := false }

theorem tf_coarse : ∃ t : TF ℝ 2, (TF.identity (Base.init ℝ none 1) : TF ℝ 2).setTimes [2, 4] = .ok t := by
  simp [TF.setTimes, Base.setTimes, Base.init, bind, Except.bind, pure, Except.pure]

theorem tf_fine : ∃ t : TF ℝ 2, (TF.oversampling Ex93.base : TF ℝ 2).setTimes [2, 4] = .ok t ∧ t.base.xTimes = some [1, 1, 2, 2] := by
  obtain ⟨b, hb, hx⟩ : ∃ b, Ex93.base.setTimes [2, 4] = .ok b ∧ b.xTimes = some [1, 1, 2, 2] := by
    refine ⟨_, rfl, ?_⟩
    simp only [Ex93.base, npRepeat_cons, npRepeat_nil, List.replicate, Option.some.injEq]
    norm_num
  exact ⟨.oversampling b, by simp only [TF.setTimes, hb, bind, Except.bind, pure, Except.pure], hx⟩

/-- Oversampling by two: steps of lengths 2 and 4 are divided into 1, 1, 2, 2. -/
example : ∃ (L : Lapack (Fin 2)) (t t' : TF ℝ 2) (v : List ℝ) (J : List (List (Fin 2 → ℝ))) (s s' r r' : Sim 2),
    t'.base.xTimes = some [1, 1, 2, 2] ∧
    (sim L t [2, 4]).wrappedCosts (some [fun _ => 1, fun _ => 2]) = .ok (s, v) ∧
    (sim L t' [1, 1, 2, 2]).wrappedCosts (some [fun _ => 1, fun _ => 2]) = .ok (s', v) ∧
    (sim L t [2, 4]).wrappedJac (some [fun _ => 1, fun _ => 2]) = .ok (r, J) ∧
    (sim L t' [1, 1, 2, 2]).wrappedJac (some [fun _ => 1, fun _ => 2]) = .ok (r', J) := by
  obtain ⟨L, -, -, hE, hF⟩ := lapack_exists (Fin 2)
  obtain ⟨t, ht⟩ := tf_coarse
  obtain ⟨t', ht', hσ⟩ := tf_fine
  have hp : ExactPar (Ex93.par L) := ⟨by simp [Ex93.par], rfl, rfl, hE, hF, Or.inl ⟨rfl, rfl⟩⟩
  have h1 : Twin [2, 4] [1, 1, 2, 2] (⟨2, t, .unary Real.sin Real.cos, 2, none, none⟩ : SolverObj 2)
      ⟨2, t', .unary Real.sin Real.cos, 4, none, none⟩ :=
    ⟨⟨2, .unary Real.sin Real.cos, fun r k => Real.sin (r k), Ex93.base, t, t', fun r => Real.hasDerivAt_sin r, fun x => rfl, rfl,
      by simp [Ex93.base], ht, ht', hσ, rfl, rfl⟩⟩
  have h2 : Twin [2, 4] [1, 1, 2, 2] (⟨2, t, .identity, 2, none, none⟩ : SolverObj 2) ⟨2, t', .identity, 4, none, none⟩ :=
    ⟨⟨2, .identity, id, Ex93.base, t, t', trivial, fun x => (List.map_id x).symm, rfl, by simp [Ex93.base], ht, ht', hσ, rfl, rfl⟩⟩
  have hfin : Finer [2, 4] (sim L t [2, 4]) (sim L t' [1, 1, 2, 2]) := by
    refine ⟨.cons ⟨_, h1⟩ (.cons ⟨_, h2⟩ .nil), .cons ⟨rfl, _, _, _, rfl, rfl, h1, ?_⟩ (.cons ⟨rfl, _, _, _, rfl, rfl, h2, ?_⟩ .nil),
      by simp [sim]⟩
    · exact .operation (Ex93.par L) !![1, 0; 0, -1] hp rfl (fun _ A => A) none (by simp) false (Or.inl rfl) !![0, 1; 1, 0] 0 "gate"
        rfl rfl
    · exact .leakage (Ex93.par L) !![1, 0; 0, -1] hp rfl (by ext i j; fin_cases i <;> fin_cases j <;> simp)
        (Ex93.ctrl_hermitian L) (Submonoid.one_mem _) [0] (by simp) (by simp) 1 "leakage" rfl rfl
  obtain ⟨v, s, s', g1, g2⟩ := c103_costs [2, 4] (by simp) _ _ hfin [fun _ => 1, fun _ => 2] rfl
  obtain ⟨J, r, r', g3, g4⟩ := c103_gradient [2, 4] (by simp) _ _ hfin rfl rfl (by norm_num) [fun _ => 1, fun _ => 2] rfl
  exact ⟨L, t, t', v, J, s, s', r, r', hσ, g1, g2, g3, g4⟩

end Ex103

end Verif.Sim
