import Verif.Cost.Gradient

/-!
# Cost functions on top of the Schroedinger solver

The reads a cost function performs, with the state of the solver handed from read to read, and the facts that turn the
gradients with respect to propagators into gradients with respect to control amplitudes.
-/

namespace Verif.Cost
open Verif Verif.Operator Verif.Solver Matrix

section
variable {n m : Type} [Fintype n] [DecidableEq n]

/-- The derivatives as used by a cost function: an entry that was never computed is `None` and raises when it is
multiplied. -/
def plainDerivs (d : List (List (Option (Option (Matrix n n ℂ))))) : Except PyErr (List (List (Matrix n n ℂ))) :=
  allOk (d.map fun row => allOk (row.map fun e =>
    match e with
    | some (some D) => .ok D
    | _ => .error .typeError))

/-- The reads of a gradient, cost_functions.py:1301-1312: forward, reversed, derivatives. -/
noncomputable def readTrace (cfg : Cfg n m) (s : St n m) : Except PyErr (Trace n m) × St n m :=
  match readFwd cfg s with
  | (.error e, s1) => (.error e, s1)
  | (.ok f, s1) =>
    match readRev cfg s1 with
    | (.error e, s2) => (.error e, s2)
    | (.ok r, s2) =>
      match readDeriv cfg s2 with
      | (.error e, s3) => (.error e, s3)
      | (.ok d, s3) =>
        match plainDerivs d with
        | .error e => (.error e, s3)
        | .ok dP => (.ok ⟨f, dP, r⟩, s3)

/-- `costs()` of a cost function that only looks at the forward propagators. -/
noncomputable def costOn (f : List (Matrix n m ℂ) → Except PyErr ℝ) (cfg : Cfg n m) (s : St n m) :
    Except PyErr ℝ × St n m :=
  match readFwd cfg s with
  | (.error e, s') => (.error e, s')
  | (.ok fwd, s') => (f fwd, s')

/-- `grad()` of a cost function. -/
noncomputable def gradOn (f : Trace n m → Except PyErr (List (List ℝ))) (cfg : Cfg n m) (s : St n m) :
    Except PyErr (List (List ℝ)) × St n m :=
  match readTrace cfg s with
  | (.error e, s') => (.error e, s')
  | (.ok tr, s') => (f tr, s')

/-- The propagator of step `t` for amplitudes `u`. -/
noncomputable def _root_.Verif.Solver.SPar.step (p : SPar n m) (τ : List ℝ) (u : Pulse) (t : Nat) : Matrix n n ℂ :=
  propOf p.cfg ((-Complex.I) • hamiltonian (p.drift.getD t 0) p.ctrl (u.getD t [])) ((p.xTimes τ).getD t 0)

/-- All propagators. -/
noncomputable def _root_.Verif.Solver.SPar.steps (p : SPar n m) (τ : List ℝ) (u : Pulse) : List (Matrix n n ℂ) :=
  (List.range (p.xTimes τ).length).map fun t => p.step τ u t

/-- The derivative of step `t` by control `c` with method 'Frechet'. -/
noncomputable def _root_.Verif.Solver.SPar.dstep (p : SPar n m) (τ : List ℝ) (u : Pulse) (t c : Nat) : Matrix n n ℂ :=
  p.L.frechet (((p.xTimes τ).getD t 0 : ℂ) • (-Complex.I) • hamiltonian (p.drift.getD t 0) p.ctrl (u.getD t []))
    (((p.xTimes τ).getD t 0 : ℂ) • (-Complex.I) • p.ctrl.getD c 0)

theorem steps_length (p : SPar n m) (τ : List ℝ) (u : Pulse) : (p.steps τ u).length = (p.xTimes τ).length := by
  simp [SPar.steps]

/-- Specification: a state whose caches belong to the amplitudes `u` on the grid `τ`. -/
structure Ready (p : SPar n m) (τ : List ℝ) (u : Pulse) (s : St n m) : Prop where
  inv : Inv p.cfg u s
  times : s.times = p.xTimes τ
  shape : ∃ y, ampsOf p.cfg τ y = some u

theorem ready_fresh (p : SPar n m) (τ : List ℝ) (y u : Pulse) (h : ampsOf p.cfg τ y = some u) :
    Ready p τ u (fresh p.cfg τ y) := by
  obtain ⟨hI, hT⟩ := fresh_inv p.cfg τ y u h
  exact ⟨hI, hT, y, h⟩

theorem Ready.cells {p : SPar n m} {τ : List ℝ} {u : Pulse} {s : St n m} (h : Ready p τ u s) (hv : p.Valid τ) :
    Solver.cells p.cfg s.times u = ((p.steps τ u).map some, none) := by
  obtain ⟨y, hy⟩ := h.shape
  rw [h.times, p.cells_eq τ hv y u hy]
  rfl

/-- Reading the forward propagators. -/
theorem Ready.fwd {p : SPar n m} {τ : List ℝ} {u : Pulse} {s : St n m} (h : Ready p τ u s) (hv : p.Valid τ)
    (hst : Stable p.cfg) :
    ∃ f s', readFwd p.cfg s = (.ok f, s') ∧ IsForward p.init (p.steps τ u) f ∧ Ready p τ u s' := by
  have h1 := readFwd_ok hst h.inv
  have h2 : specFwd p.cfg s.times u = .ok (p.init :: (fwdLoop ((p.steps τ u).map some) p.init).1) := by
    unfold specFwd
    rw [h.cells hv]
    simp only [orErr]
    have := (fwdLoop_some (p.steps τ u) p.init).1
    show orErr (fwdLoop ((p.steps τ u).map some) p.init).2 _ = _
    rw [this]
    rfl
  obtain ⟨h3, h4⟩ := h1
  rw [h2] at h3
  obtain ⟨h5, h6⟩ := h4 ⟨_, h3⟩
  exact ⟨_, _, Prod.ext h3 rfl, fwdLoop_isForward _ _, h5, h6.trans h.times, h.shape⟩

theorem Ready.rev {p : SPar n m} {τ : List ℝ} {u : Pulse} {s : St n m} (h : Ready p τ u s) (hv : p.Valid τ)
    (hst : Stable p.cfg) (hne : p.xTimes τ ≠ []) :
    ∃ r s', readRev p.cfg s = (.ok r, s') ∧ IsReversed (p.steps τ u) r ∧ Ready p τ u s' := by
  have h1 := readRev_ok hst h.inv
  have hps : p.steps τ u ≠ [] := by
    intro h0
    apply hne
    have := steps_length p τ u
    rw [h0] at this
    exact List.length_eq_zero_iff.mp this.symm
  obtain ⟨r, hr, hr'⟩ := revOf_isReversed _ hps
  have h2 : specRev p.cfg s.times u = .ok r := by
    unfold specRev
    rw [h.cells hv]
    simpa only [orErr] using hr
  obtain ⟨h3, h4⟩ := h1
  rw [h2] at h3
  obtain ⟨h5, h6⟩ := h4 ⟨_, h3⟩
  exact ⟨_, _, Prod.ext h3 rfl, hr', h5, h6.trans h.times, h.shape⟩

theorem Ready.deriv {p : SPar n m} {τ : List ℝ} {u : Pulse} {s : St n m} (h : Ready p τ u s) (hv : p.Valid τ)
    (hst : Stable p.cfg) (hmeth : p.method = .frechet) (happ : p.approx = .none) :
    ∃ d s', readDeriv p.cfg s = (.ok d, s') ∧ plainDerivs d = .ok ((List.range p.ctrl.length).map fun c =>
      (List.range (p.xTimes τ).length).map fun t => p.dstep τ u t c) ∧ Ready p τ u s' := by
  obtain ⟨y, hy⟩ := h.shape
  obtain ⟨hul, hrow⟩ := ampsOf_shape p.cfg τ y u hy
  have hul' : u.length = (p.xTimes τ).length := hul
  have hap' : p.cfg.approx = .none := happ
  have hm' : p.cfg.method = .frechet := hmeth
  have h1 := readDeriv_ok hst h.inv
  have hcells := cellsD_ok p.cfg hv.2.2 (p.xTimes τ) u
    (by show _ ≤ (schroedGens p.drift p.ctrl u).length; rw [schroedGens_length, hv.2.1]) (p.dirs_ok hv.1 _ _)
  have hd : specDeriv p.cfg s.times u = .ok (byControl p.cfg.nCtrl
      ((cellsD p.cfg (p.xTimes τ) u).1.map Prod.snd)) := by
    simp only [specDeriv, hap', h.times, hcells, orErr]
  obtain ⟨h3, h4⟩ := h1
  rw [hd] at h3
  obtain ⟨h5, h6⟩ := h4 ⟨_, h3⟩
  refine ⟨_, _, Prod.ext h3 rfl, ?_, h5, h6.trans h.times, h.shape⟩
  have hn : p.cfg.nCtrl = p.ctrl.length := rfl
  unfold plainDerivs byControl
  rw [hcells, List.map_map, hn]
  refine allOk_map _ _ _ fun c hc => ?_
  have hc' := List.mem_range.mp hc
  simp only [Function.comp, List.map_map]
  refine allOk_map _ _ _ fun t ht => ?_
  have ht' := List.mem_range.mp ht
  have h7 : t < p.drift.length := by rw [hv.2.1]; exact ht'
  have h8 : t < u.length := by omega
  have hdir : (p.cfg.dirs (p.xTimes τ) u).getD t [] = p.ctrl.map fun H => (-Complex.I) • H := by
    show (List.replicate (p.xTimes τ).length _).getD t [] = _
    rw [List.getD_eq_getElem?_getD, List.getElem?_replicate, if_pos ht']
    rfl
  have hgen : (p.cfg.gens u).getD t 0 = (-Complex.I) • hamiltonian (p.drift.getD t 0) p.ctrl (u.getD t []) := by
    rw [List.getD_eq_getElem?_getD]
    show ((schroedGens p.drift p.ctrl u)[t]?).getD 0 = _
    rw [schroedGens_getElem p.drift p.ctrl u t _ _ (List.getElem?_eq_getElem h7) (List.getElem?_eq_getElem h8)
      (hrow _ (List.getElem_mem h8)), List.getD_eq_getElem _ _ h7, List.getD_eq_getElem _ _ h8]
    rfl
  simp only [Function.comp, hdir, hgen, List.getElem?_map, List.getElem?_eq_getElem hc', Option.map_some]
  simp only [gradOf, dexpGrad, hm', dexp, SPar.dstep, List.getD_eq_getElem _ _ hc']
  rfl

/-- What a gradient reads belongs to the propagators of the amplitudes. -/
theorem Ready.trace {p : SPar n m} {τ : List ℝ} {u : Pulse} {s : St n m} (h : Ready p τ u s) (hv : p.Valid τ)
    (hst : Stable p.cfg) (hmeth : p.method = .frechet) (happ : p.approx = .none) (hne : p.xTimes τ ≠ []) :
    ∃ tr s', readTrace p.cfg s = (.ok tr, s') ∧ tr.Of p.init (p.steps τ u) p.ctrl.length ∧
      (∀ t c, t < (p.xTimes τ).length → c < p.ctrl.length → tr.derivAt t c = some (p.dstep τ u t c)) ∧ Ready p τ u s' := by
  obtain ⟨f, s1, e1, hf, r1⟩ := h.fwd hv hst
  obtain ⟨r, s2, e2, hr, r2⟩ := r1.rev hv hst hne
  obtain ⟨d, s3, e3, hd, r3⟩ := r2.deriv hv hst hmeth happ
  refine ⟨⟨f, (List.range p.ctrl.length).map fun c =>
    (List.range (p.xTimes τ).length).map fun t => p.dstep τ u t c, r⟩, s3, ?_, ⟨hf, hr, ?_⟩, fun t c ht hc => ?_, r3⟩
  · unfold readTrace
    rw [e1]; simp only
    rw [e2]; simp only
    rw [e3]; simp only
    rw [hd]
  · refine ⟨by simp, fun row hrow => ?_⟩
    obtain ⟨c, -, rfl⟩ := List.mem_map.mp hrow
    simp [steps_length]
  · simp [Trace.derivAt, List.getElem?_range hc, List.getElem?_range ht]

theorem bump_zero (u : Pulse) (t c : Nat) : bump u t c 0 = u := by
  have h1 : (fun row : List ℝ => row.modify c fun x => x + 0) = id := by
    funext row
    have : (fun x : ℝ => x + 0) = id := by funext x; simp
    rw [this, List.modify_id]; rfl
  unfold bump
  rw [h1, List.modify_id]

/-- Changing one amplitude sweeps one propagator, with the derivative `dstep`. -/
theorem sweep_of (p : SPar n m) (τ : List ℝ) (u : Pulse) (t c : Nat) (hu : u.length = (p.xTimes τ).length)
    (hrow : ∀ row ∈ u, row.length = p.ctrl.length) (ht : t < (p.xTimes τ).length) (hc : c < p.ctrl.length)
    (hmeth : p.method = .frechet) (hE : p.L.ExpmOk) (hF : p.L.FrechetOk)
    (fwds : ℝ → List (Matrix n m ℂ)) (hf : ∀ x, IsForward p.init (p.steps τ (bump u t c x)) (fwds x)) :
    Sweep p.init (p.steps τ u) t (fun x => p.step τ (bump u t c x) t) (p.dstep τ u t c) fwds := by
  have h2 : t < u.length := by omega
  have hbt : ∀ x, (bump u t c x).getD t [] = u[t].modify c (· + x) := by
    intro x
    simp [bump, List.getD_eq_getElem?_getD, List.getElem?_modify, List.getElem?_eq_getElem h2]
  have hb : ∀ x t', t' ≠ t → (bump u t c x).getD t' [] = u.getD t' [] := by
    intro x t' h
    simp [bump, List.getD_eq_getElem?_getD, List.getElem?_modify, Ne.symm h]
  refine ⟨fun x => ?_, ?_, ?_⟩
  · have : (p.steps τ u).set t (p.step τ (bump u t c x) t) = p.steps τ (bump u t c x) := by
      refine List.ext_getElem (by simp [SPar.steps]) fun i h3 h4 => ?_
      have hi : i < (p.xTimes τ).length := by simpa [SPar.steps] using h4
      rw [List.getElem_set]
      by_cases e : t = i
      · subst e
        simp [SPar.steps]
      · rw [if_neg e]
        simp only [SPar.steps, List.getElem_map, List.getElem_range, SPar.step, hb x i (Ne.symm e)]
    rw [this]
    exact hf x
  · rw [bump_zero]
    simp [SPar.steps, List.getElem?_range ht]
  · have := hF (((p.xTimes τ).getD t 0 : ℂ) • (-Complex.I) • hamiltonian (p.drift.getD t 0) p.ctrl (u.getD t []))
      (((p.xTimes τ).getD t 0 : ℂ) • (-Complex.I) • p.ctrl.getD c 0)
    refine this.congr (fun x => ?_) rfl
    unfold SPar.step
    have hpo : ∀ G σ, propOf p.cfg G σ = p.L.expm ((σ : ℂ) • G) := by
      intro G σ
      unfold propOf dexpProp expProp
      have : p.cfg.method = .frechet := hmeth
      rw [this]
      split <;> rfl
    rw [hpo, hE, hbt, hamiltonian_bump _ _ _ c x p.ctrl[c] (by rw [hrow _ (List.getElem_mem h2)]; exact hc)
      (List.getElem?_eq_getElem hc), List.getD_eq_getElem _ _ h2, List.getD_eq_getElem _ _ hc]
    congr 1
    simp only [smul_add]
    congr 1
    rw [smul_comm (x : ℂ), smul_comm (x : ℂ)]

/-- From propagators to amplitudes: if `grad` is the derivative of `cost` for every sweep of a propagator, then entry
`[t][c]` of what `grad()` returns is the derivative of what `costs()` returns with respect to amplitude `c` of step
`t`. -/
theorem amplitude_gradient (p : SPar n m) (τ : List ℝ) (hv : p.Valid τ) (hst : Stable p.cfg)
    (hmeth : p.method = .frechet) (happ : p.approx = .none) (hE : p.L.ExpmOk) (hF : p.L.FrechetOk) (hne : p.xTimes τ ≠ [])
    (costF : List (Matrix n m ℂ) → Except PyErr ℝ) (gradF : Trace n m → Except PyErr (List (List ℝ)))
    (u : Pulse) (s : St n m) (hs : Ready p τ u s)
    (hgrad : ∀ tr : Trace n m, tr.Of p.init (p.steps τ u) p.ctrl.length →
      ∃ g, gradF tr = .ok g ∧ Rect g (p.steps τ u).length p.ctrl.length ∧
        ∀ t c P D fwds, Sweep p.init (p.steps τ u) t P D fwds → tr.derivAt t c = some D →
          ∃ (G : ℝ) (cost : ℝ → ℝ), entry g t c = some G ∧ (∀ x, costF (fwds x) = .ok (cost x)) ∧
            costF tr.fwd = .ok (cost 0) ∧ HasDerivAt cost G 0) :
    ∃ g, (gradOn gradF p.cfg s).1 = .ok g ∧ Rect g (p.xTimes τ).length p.ctrl.length ∧
      ∀ t c, t < (p.xTimes τ).length → c < p.ctrl.length →
        ∀ sx : ℝ → St n m, (∀ x, Ready p τ (bump u t c x) (sx x)) →
          ∃ (G : ℝ) (cost : ℝ → ℝ), entry g t c = some G ∧ (∀ x, (costOn costF p.cfg (sx x)).1 = .ok (cost x)) ∧
            (costOn costF p.cfg s).1 = .ok (cost 0) ∧ HasDerivAt cost G 0 := by
  obtain ⟨tr, s', e1, hOf, hD, -⟩ := hs.trace hv hst hmeth happ hne
  obtain ⟨g, hg, hR, hder⟩ := hgrad tr hOf
  refine ⟨g, ?_, by rwa [steps_length] at hR, fun t c ht hc sx hsx => ?_⟩
  · unfold gradOn; rw [e1]; exact hg
  · obtain ⟨y, hy⟩ := hs.shape
    obtain ⟨hul, hrow⟩ := ampsOf_shape p.cfg τ y u hy
    choose f s1 h1 h2 h3 using fun x => (hsx x).fwd hv hst
    obtain ⟨G, cost, k1, k2, k3, k4⟩ := hder t c _ _ f
      (sweep_of p τ u t c hul hrow ht hc hmeth hE hF f h2) (hD t c ht hc)
    refine ⟨G, cost, k1, fun x => ?_, ?_, k4⟩
    · unfold costOn; rw [h1 x]; exact k2 x
    · obtain ⟨f0, s0, h4, h5, -⟩ := hs.fwd hv hst
      have : readFwd p.cfg s = (.ok tr.fwd, s0) := by
        unfold readTrace at e1
        rw [h4] at e1 ⊢
        simp only at e1
        split at e1
        · simp at e1
        · split at e1
          · simp at e1
          · split at e1
            · simp at e1
            · simp only [Prod.mk.injEq, Except.ok.injEq] at e1
              rw [← e1.1]
      unfold costOn; rw [this]; exact k3

/-- **C44** End to end: with the Schroedinger solver (derivatives by 'Frechet') entry `[t][c]` of
`OperationInfidelity.grad()` is the derivative of `OperationInfidelity.costs()` when amplitude `c` of step `t`
changes. `y` leads to amplitudes `u`, `Y x` to the amplitudes with this entry increased by `x`. -/
theorem c44_schroedinger (p : SPar n n) (τ : List ℝ) (hv : p.Valid τ) (hst : Stable p.cfg)
    (hmeth : p.method = .frechet) (happ : p.approx = .none) (hE : p.L.ExpmOk) (hF : p.L.FrechetOk) (hne : p.xTimes τ ≠ [])
    (cl : Closest) (cs : Option (List n)) (hcs : cs ≠ some []) (mcu : Bool) (hm : mcu = false ∨ cs = none)
    (T : Matrix (CompIdx cs) (CompIdx cs) ℂ) (y u : Pulse) (hy : ampsOf p.cfg τ y = some u) :
    ∃ g, (gradOn (fun tr => opGrad cl cs T mcu tr.fwd tr.dP tr.rev) p.cfg (fresh p.cfg τ y)).1 = .ok g ∧
      Rect g (p.xTimes τ).length p.ctrl.length ∧
      ∀ t c, t < (p.xTimes τ).length → c < p.ctrl.length →
        ∀ Y : ℝ → Pulse, (∀ x, ampsOf p.cfg τ (Y x) = some (bump u t c x)) →
          ∃ (G : ℝ) (cost : ℝ → ℝ), entry g t c = some G ∧
            (∀ x, (costOn (opCosts cl cs T mcu) p.cfg (fresh p.cfg τ (Y x))).1 = .ok (cost x)) ∧ HasDerivAt cost G 0 := by
  have hnc : 0 < p.ctrl.length := List.length_pos_iff.mpr hv.1
  have hps : p.steps τ u ≠ [] := by
    intro h0
    apply hne
    have := steps_length p τ u
    rw [h0] at this
    exact List.length_eq_zero_iff.mp this.symm
  obtain ⟨g, h1, h2, h3⟩ := amplitude_gradient p τ hv hst hmeth happ hE hF hne (opCosts cl cs T mcu)
    (fun tr => opGrad cl cs T mcu tr.fwd tr.dP tr.rev) u _ (ready_fresh p τ y u hy)
    fun tr htr => c44_gradient cl cs hcs mcu hm T p.init _ hps _ hnc tr htr
  refine ⟨g, h1, h2, fun t c ht hc Y hY => ?_⟩
  obtain ⟨G, cost, k1, k2, -, k4⟩ := h3 t c ht hc (fun x => fresh p.cfg τ (Y x)) fun x => ready_fresh p τ _ _ (hY x)
  exact ⟨G, cost, k1, k2, k4⟩

end

/-- `c44_schroedinger` applies: a qubit with three time steps and two controls, target a Hadamard-like gate on both
states, control 1 at time step 2. -/
example : ∃ L : Lapack (Fin 2), ∃ g, (gradOn (fun tr => opGrad (fun _ A => A) none (!![0, 1; 1, 0] : Matrix (Fin 2) (Fin 2) ℂ)
      false tr.fwd tr.dP tr.rev) (qubitPar L .none true).cfg
      (fresh (qubitPar L .none true).cfg [1, 2, 3] [[1, 2], [3, 4], [5, 6]])).1 = .ok g ∧ ∃ G cost, entry g 2 1 = some G ∧
      (∀ x, (costOn (opCosts (fun _ A => A) none (!![0, 1; 1, 0] : Matrix (Fin 2) (Fin 2) ℂ) false) (qubitPar L .none true).cfg
        (fresh (qubitPar L .none true).cfg [1, 2, 3] [[1, 2], [3, 4], [5, 6 + x]])).1 = .ok (cost x)) ∧
      HasDerivAt cost G 0 := by
  obtain ⟨L, -, -, hE, hF⟩ := lapack_exists (Fin 2)
  obtain ⟨g, h1, -, h3⟩ := c44_schroedinger (qubitPar L .none true) [1, 2, 3] (qubitPar_valid L _ _) (Or.inl ⟨rfl, rfl⟩)
    rfl rfl hE hF (by simp [qubitPar]) (fun _ A => A) none (by simp) false (Or.inl rfl) (!![0, 1; 1, 0])
    [[1, 2], [3, 4], [5, 6]] [[1, 2], [3, 4], [5, 6]] (qubitPar_amps L _ _ _ rfl (by simp))
  obtain ⟨G, cost, k1, k2, k3⟩ := h3 2 1 (by simp [qubitPar]) (by simp [qubitPar]) (fun x => [[1, 2], [3, 4], [5, 6 + x]])
    fun x => qubitPar_amps L _ _ _ rfl (by simp)
  exact ⟨L, g, h1, G, cost, k1, k2, k3⟩

end Verif.Cost
