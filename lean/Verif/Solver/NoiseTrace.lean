import Verif.Solver.MonteCarloThms

/-!
# Noise traces and solvers without noise

The derivatives of the noise propagators, and the relation of every noise trace to a solver without noise whose drift
contains the noise.
-/

namespace Verif.Solver
open Verif Verif.Operator Matrix

section
variable {n m : Type} [Fintype n] [DecidableEq n]

/-! ## Model -/

/-- The 'grape' derivatives of one trace, solver_algorithms.py:1440-1445: the loops run over time steps and controls and fill
the cells `[ctrl][t]`. -/
noncomputable def grapeTrace (cfg : Cfg n m) (times : List ℝ) (u : Pulse) (ps : List (Option (Matrix n n ℂ))) :
    Except PyErr (List (List (Option (Option (Matrix n n ℂ))))) := do
  let rows ← inOrder [] ((List.range times.length).map (grapeRow cfg.nCtrl (cfg.dirs times u) times ps))
  pure ((List.range cfg.nCtrl).map fun c => rows.map fun row => row.getD c none)

/-- `frechet_deriv_propagators_noise` when nothing has been computed before, solver_algorithms.py:1216-1232 and 1412-1449.
With 'grape' the propagators of all traces are computed first, then the derivatives without noise, then those of the
traces. -/
noncomputable def derivsNoise (M : MC n m) (times : List ℝ) (y x u : Pulse) :
    Except PyErr (List (List (List (Option (Option (Matrix n n ℂ)))))) :=
  match M.base.approx with
  | .none => do
    let r ← noiseRun M true times y x u
    pure (r.map Prod.snd)
  | .grape => do
    let r ← noiseRun M false times y x u
    let _ ← specDeriv M.base times u
    inOrder [] (r.map fun out => grapeTrace M.base times u out.1)
  | .other => .error .valueError

/-! ## Specification -/

/-- The Hamiltonian of the noise in trace `k` at step `t`: the sum of the noise operators with the samples as factors. -/
noncomputable def noiseHam (hN : List (Matrix n n ℂ)) (s : Arr3) (k t : Nat) : Matrix n n ℂ :=
  ∑ j : Fin hN.length, ((s.val j k t : ℝ) : ℂ) • hN[j]

/-- The solver without noise whose drift contains the noise of trace `k`. -/
noncomputable def SPar.noisy (p : SPar n m) (hN : List (Matrix n n ℂ)) (s : Arr3) (k : Nat) : SPar n m :=
  ⟨p.L, p.method, p.skew, p.calcDeriv, p.approx, p.init, p.drift.zipIdx.map fun q => q.1 + noiseHam hN s k q.2, p.ctrl, p.tf,
    p.xTimes, p.amp⟩

/-! ## Lemmas -/

/-- What a run with derivatives returns. -/
noncomputable def runOut (cfg : Cfg n m) (times : List ℝ) (u : Pulse) (g : List (Matrix n n ℂ)) : TraceOut n :=
  ((List.range times.length).map fun t => some (dexpProp cfg.L cfg.method cfg.skew (g.getD t 0) (times.getD t 0)),
    byControl cfg.nCtrl ((List.range times.length).map fun t =>
      ((cfg.dirs times u).getD t []).map fun D => gradOf cfg (g.getD t 0) D (times.getD t 0)))

/-- A run with derivatives. -/
theorem traceRun_true (cfg : Cfg n m) (hm : cfg.method ≠ .other) (times : List ℝ) (u : Pulse) (g : List (Matrix n n ℂ))
    (hg : times.length ≤ g.length)
    (hd : ∀ t, t < times.length → ∃ Ds, (cfg.dirs times u)[t]? = some Ds ∧ Ds ≠ [] ∧ cfg.nCtrl ≤ Ds.length) :
    traceRun cfg true times u g = .ok (runOut cfg times u g) := by
  rw [← traceRun_withGens]
  have h := cellsD_ok (withGens cfg g) hm times u hg hd
  unfold traceRun
  simp only [if_true]
  rw [show fill (none, []) ((List.range times.length).map (stepDeriv (withGens cfg g) g ((withGens cfg g).dirs times u) times))
    = cellsD (withGens cfg g) times u from rfl, h]
  simp only [orErr, List.map_map]
  rfl

/-- A run without derivatives. -/
theorem traceRun_false (cfg : Cfg n m) (hm : cfg.method ≠ .other) (times : List ℝ) (u : Pulse) (g : List (Matrix n n ℂ))
    (hg : times.length ≤ g.length) :
    traceRun cfg false times u g = .ok
      ((List.range times.length).map fun t => some (expProp cfg.L cfg.method cfg.skew (g.getD t 0) (times.getD t 0)), []) := by
  have h := cellsP_ok (withGens cfg g) hm times u hg
  unfold traceRun
  simp only [Bool.false_eq_true, if_false]
  rw [show fill none ((List.range times.length).map (stepPlain cfg g times)) = cellsP (withGens cfg g) times u from rfl, h]
  simp only [orErr]
  rfl

/-- In a single process every trace is run with its generators. -/
theorem noiseRun_serial (M : MC n m) (hp : M.procs = .int 1) (wd : Bool) (times : List ℝ) (y x u : Pulse)
    (ng : List (List (Matrix n n ℂ))) (hng : dynGenNoise M y x u = .ok ng) (b : TraceOut n)
    (hb : traceRun M.base wd times u (M.base.gens u) = .ok b) (out : List (Matrix n n ℂ) → TraceOut n)
    (hout : ∀ g ∈ ng, traceRun M.base wd times u g = .ok (out g)) :
    noiseRun M wd times y x u = .ok (ng.map out) := by
  obtain ⟨hl1, -⟩ := dynGenNoise_length M y x u ng hng
  unfold noiseRun
  rw [hng]
  simp only [bind, Except.bind, hb, hp]
  rw [show (Procs.int 1).mode = .serial from rfl]
  simp only
  rw [inOrder_map_ok _ _ _ (fun k => out (ng.getD k []))]
  · congr 1
    refine List.ext_getElem (by simp [hl1]) fun k h1 h2 => ?_
    have hk : k < ng.length := by simpa using h2
    simp [List.getElem?_eq_getElem hk]
  · intro k hk
    have hk' : k < ng.length := by rw [hl1]; exact List.mem_range.mp hk
    rw [List.getD_eq_getElem _ _ hk']
    exact hout _ (List.getElem_mem hk')

theorem SPar.noisy_valid {p : SPar n m} {τ : List ℝ} (hv : p.Valid τ) (hN : List (Matrix n n ℂ)) (s : Arr3) (k : Nat) :
    (p.noisy hN s k).Valid τ := by
  refine ⟨hv.1, ?_, hv.2.2⟩
  show (p.drift.zipIdx.map _).length = _
  rw [List.length_map, List.length_zipIdx]
  exact hv.2.1

theorem SPar.noisy_stable {p : SPar n m} (hst : Stable p.cfg) (hN : List (Matrix n n ℂ)) (s : Arr3) (k : Nat) :
    Stable (p.noisy hN s k).cfg := hst

omit [Fintype n] [DecidableEq n] in
theorem hamiltonian_add_drift (H N : Matrix n n ℂ) (ctrl : List (Matrix n n ℂ)) (row : List ℝ) :
    hamiltonian (H + N) ctrl row = hamiltonian H ctrl row + N := by
  unfold hamiltonian
  abel

/-- The generators with noise are those of the solver whose drift contains the noise. -/
theorem dynGenNoise_noisy (p : SPar n m) (τ : List ℝ) (hv : p.Valid τ) (y' u : Pulse) (hu : ampsOf p.cfg τ y' = some u)
    (M : MC n m) (hb : M.base = p.cfg) (ha : M.noiseAmp = none)
    (h0 : M.samples.d0 = M.hNoise.length) (h1 : M.samples.d1 = M.nTraces) (h2 : M.samples.d2 = (p.xTimes τ).length)
    (y x : Pulse) :
    dynGenNoise M y x u = .ok ((List.range M.nTraces).map fun k => (p.noisy M.hNoise M.samples k).cfg.gens u) := by
  obtain ⟨hul, hrow⟩ := ampsOf_shape p.cfg τ y' u hu
  have hul' : u.length = (p.xTimes τ).length := hul
  have hgens : M.base.gens u = schroedGens p.drift p.ctrl u := by rw [hb]; rfl
  have hgl : (M.base.gens u).length = (p.xTimes τ).length := by rw [hgens, schroedGens_length, hv.2.1]
  obtain ⟨ng, hng, hl, hval⟩ := noiseGens_eq (M.base.gens u) M.nTraces M.samples.transpose M.hNoise
    (by simp [Arr3.transpose, h2, hgl]) (by simp [Arr3.transpose, h1])
  rw [dynGenNoise_none M ha, hng]
  congr 1
  refine List.ext_getElem (by simp [hl]) fun k hk1 hk2 => ?_
  have hk : k < M.nTraces := by simpa using hk2
  rw [List.getElem_map, List.getElem_range]
  have hlen : ((p.noisy M.hNoise M.samples k).cfg.gens u).length = (M.base.gens u).length := by
    rw [hgl]
    show (schroedGens (p.noisy M.hNoise M.samples k).drift p.ctrl u).length = _
    rw [schroedGens_length]
    exact (SPar.noisy_valid hv _ _ _).2.1
  refine List.ext_getElem ((hval k hk1).1.trans hlen.symm) fun t ht1 ht2 => ?_
  have htT : t < (p.xTimes τ).length := by rw [← hgl, ← hlen]; exact ht2
  have htd : t < p.drift.length := by rw [hv.2.1]; exact htT
  have htu : t < u.length := by omega
  have hr : u[t].length = p.ctrl.length := hrow _ (List.getElem_mem htu)
  have hG : (M.base.gens u)[t]? = some ((-Complex.I) • hamiltonian p.drift[t] p.ctrl u[t]) := by
    rw [hgens]
    exact schroedGens_getElem _ _ _ _ _ _ (List.getElem?_eq_getElem htd) (List.getElem?_eq_getElem htu) hr
  have e1 := (hval k hk1).2 t _ hG
  rw [if_pos (by simp only [Arr3.transpose]; omega),
    show M.samples.transpose.d2 = M.hNoise.length from h0, zip_sum_eq, List.getElem?_eq_getElem ht1] at e1
  have e2 : ((p.noisy M.hNoise M.samples k).cfg.gens u)[t]? = some ((-Complex.I) •
      hamiltonian (p.drift[t] + noiseHam M.hNoise M.samples k t) p.ctrl u[t]) := by
    refine schroedGens_getElem _ _ _ _ _ _ ?_ (List.getElem?_eq_getElem htu) hr
    simp only [SPar.noisy, List.getElem?_map, List.getElem?_zipIdx, List.getElem?_eq_getElem htd, Option.map_some, Nat.zero_add]
  rw [List.getElem?_eq_getElem ht2, hamiltonian_add_drift, smul_add] at e2
  exact (Option.some.inj e1).trans (Option.some.inj e2).symm

/-! ## C94 -/

/-- **C94** With one sample per noise operator, trace and time step, everything the Monte Carlo solver reports for trace `k` -
propagators, forward and reversed propagation - is what a solver without noise reports whose drift contains the noise of
this trace.  This holds in parallel mode as well. -/
theorem c94_traces (p : SPar n m) (τ : List ℝ) (hv : p.Valid τ) (y u y' x : Pulse)
    (hu : ampsOf p.cfg τ y = some u) (hτ : p.xTimes τ ≠ []) (M : MC n m) (hb : M.base = p.cfg) (hp : M.ProcsOk)
    (ha : M.noiseAmp = none)
    (h0 : M.samples.d0 = M.hNoise.length) (h1 : M.samples.d1 = M.nTraces) (h2 : M.samples.d2 = (p.xTimes τ).length) :
    ∃ ps f r, propsNoise M (p.xTimes τ) y' x u = .ok ps ∧ fwdNoise M (p.xTimes τ) y' x u = .ok f ∧
      revNoise M (p.xTimes τ) y' x u = .ok r ∧ ps.length = M.nTraces ∧ f.length = M.nTraces ∧ r.length = M.nTraces ∧
      ∀ k, k < M.nTraces → ∃ psk fk rk, ps[k]? = some psk ∧ f[k]? = some fk ∧ r[k]? = some rk ∧
        (readProps (p.noisy M.hNoise M.samples k).cfg (fresh (p.noisy M.hNoise M.samples k).cfg τ y)).1 = .ok psk ∧
        (readFwd (p.noisy M.hNoise M.samples k).cfg (fresh (p.noisy M.hNoise M.samples k).cfg τ y)).1 = .ok fk ∧
        (readRev (p.noisy M.hNoise M.samples k).cfg (fresh (p.noisy M.hNoise M.samples k).cfg τ y)).1 = .ok rk := by
  have hng := dynGenNoise_noisy p τ hv y u hu M hb ha h0 h1 h2 y' x
  have hm : M.base.method ≠ .other := by rw [hb]; exact hv.2.2
  have hd : ∀ t, t < (p.xTimes τ).length → ∃ Ds, (M.base.dirs (p.xTimes τ) u)[t]? = some Ds ∧ Ds ≠ [] ∧ M.base.nCtrl ≤ Ds.length := by
    rw [hb]; exact p.dirs_ok hv.1 _ _
  have hgl : (M.base.gens u).length = (p.xTimes τ).length := by
    rw [hb]
    show (schroedGens p.drift p.ctrl u).length = _
    rw [schroedGens_length, hv.2.1]
  have hpn := propsNoise_eq M hp hm (p.xTimes τ) y' x u hd (le_of_eq hgl.symm) _ hng
  rw [List.map_map] at hpn
  set P : Nat → List (Matrix n n ℂ) := fun k => (List.range (p.xTimes τ).length).map fun t =>
    propOf M.base (((p.noisy M.hNoise M.samples k).cfg.gens u).getD t 0) ((p.xTimes τ).getD t 0) with hP
  have hpn' : propsNoise M (p.xTimes τ) y' x u = .ok (((List.range M.nTraces).map P).map fun l => l.map some) := by
    rw [hpn, List.map_map]
    rfl
  have hne : ∀ k, P k ≠ [] := by
    intro k h
    have := congrArg List.length h
    simp only [hP, List.length_map, List.length_range, List.length_nil] at this
    exact hτ (List.length_eq_zero_iff.mp this)
  obtain ⟨r₀, hr₀, -⟩ := revOf_isReversed ((List.range (p.xTimes τ).length).map fun t =>
    propOf M.base ((M.base.gens u).getD t 0) ((p.xTimes τ).getD t 0)) (by simpa using hτ)
  have hspecRev : specRev M.base (p.xTimes τ) u = .ok r₀ := by
    rw [specRev, cells_ok M.base hm (p.xTimes τ) u (le_of_eq hgl.symm) hd]
    exact hr₀
  refine ⟨_, _, _, hpn', fwdNoise_eq M _ y' x u _ hpn' _
      (specFwd_of_cells _ _ _ _ (cells_ok M.base hm (p.xTimes τ) u (le_of_eq hgl.symm) hd)), revNoise_eq M _ y' x u _ hpn' r₀ hspecRev, by simp, by simp, by simp,
    fun k hk => ⟨_, _, _, by simp [List.getElem?_range hk]; rfl, by simp [List.getElem?_range hk]; rfl,
      by simp [List.getElem?_range hk]; rfl, ?_, ?_, ?_⟩⟩
  all_goals
    obtain ⟨v1, v2, v3⟩ := fresh_values (p.noisy M.hNoise M.samples k).cfg τ y u hu
    have hT' : (p.noisy M.hNoise M.samples k).cfg.xTimes τ = p.xTimes τ := rfl
    have hcells : cells (p.noisy M.hNoise M.samples k).cfg (p.xTimes τ) u = ((P k).map some, none) := by
      rw [cells_ok (p.noisy M.hNoise M.samples k).cfg hv.2.2 (p.xTimes τ) u ?_ (p.dirs_ok hv.1 _ _)]
      · rw [hP, hb]; rfl
      · show _ ≤ (schroedGens (p.noisy M.hNoise M.samples k).drift p.ctrl u).length
        rw [schroedGens_length]
        exact le_of_eq (SPar.noisy_valid hv _ _ _).2.1.symm
  · rw [v1, specProps, hT', hcells]
    rfl
  · rw [v2, specFwd, hT', hcells]
    simp only [orErr]
    rw [show (p.noisy M.hNoise M.samples k).cfg.init = M.base.init by rw [hb]; rfl, (fwdLoop_some (P k) M.base.init).1]
  · rw [v3, specRev, hT', hcells]
    simp only [orErr]
    obtain ⟨rk, h3, -⟩ := revOf_isReversed (P k) (hne k)
    rw [h3]
    congr 1
    cases hc : P k with
    | nil => exact absurd hc (hne k)
    | cons Q ps' =>
      rw [hc] at h3
      simp only [List.map_cons, revOf] at h3
      have h4 := (revLoop_some ((Q :: ps').reverse) (1 : Matrix n n ℂ)).1
      rw [List.map_reverse, List.map_cons] at h4
      rw [h4] at h3
      simp only [orErr, Except.ok.injEq] at h3
      rw [← h3]
      rfl

/-- The derivatives as well: `frechet_deriv_propagators_noise[k]` are the derivatives of the solver without noise whose drift
contains the noise of trace `k`. (Derivatives are only available in a single process, C35.) -/
theorem c94_derivatives (p : SPar n m) (τ : List ℝ) (hv : p.Valid τ) (hst : Stable p.cfg) (happ : p.approx = .none)
    (y u y' x : Pulse) (hu : ampsOf p.cfg τ y = some u) (M : MC n m) (hb : M.base = p.cfg) (hp : M.procs = .int 1)
    (ha : M.noiseAmp = none)
    (h0 : M.samples.d0 = M.hNoise.length) (h1 : M.samples.d1 = M.nTraces) (h2 : M.samples.d2 = (p.xTimes τ).length) :
    ∃ d, derivsNoise M (p.xTimes τ) y' x u = .ok d ∧ d.length = M.nTraces ∧
      ∀ k, k < M.nTraces → ∃ dk, d[k]? = some dk ∧
        (readDeriv (p.noisy M.hNoise M.samples k).cfg (fresh (p.noisy M.hNoise M.samples k).cfg τ y)).1 = .ok dk := by
  have hng := dynGenNoise_noisy p τ hv y u hu M hb ha h0 h1 h2 y' x
  have hm : p.cfg.method ≠ .other := hv.2.2
  have hglk : ∀ k, (p.xTimes τ).length ≤ ((p.noisy M.hNoise M.samples k).cfg.gens u).length := by
    intro k
    show _ ≤ (schroedGens (p.noisy M.hNoise M.samples k).drift p.ctrl u).length
    rw [schroedGens_length]
    exact le_of_eq (SPar.noisy_valid hv _ _ _).2.1.symm
  have hgl : (p.xTimes τ).length ≤ (p.cfg.gens u).length := by
    show _ ≤ (schroedGens p.drift p.ctrl u).length
    rw [schroedGens_length, hv.2.1]
  have hrun := noiseRun_serial M hp true (p.xTimes τ) y' x u _ hng _
    (by rw [hb]; exact traceRun_true p.cfg hm _ u _ hgl (p.dirs_ok hv.1 _ _)) (runOut p.cfg (p.xTimes τ) u) (by
      intro g hg
      obtain ⟨k, -, rfl⟩ := List.mem_map.mp hg
      rw [hb]
      exact traceRun_true p.cfg hm _ u _ (hglk k) (p.dirs_ok hv.1 _ _))
  refine ⟨(List.range M.nTraces).map fun k => (runOut p.cfg (p.xTimes τ) u ((p.noisy M.hNoise M.samples k).cfg.gens u)).2,
    ?_, by simp, ?_⟩
  · unfold derivsNoise
    rw [show M.base.approx = .none by rw [hb]; exact happ]
    simp only [hrun, bind, Except.bind, pure, Except.pure, List.map_map]
    rfl
  · intro k hk
    refine ⟨_, by simp only [List.getElem?_map, List.getElem?_range hk, Option.map_some]; rfl, ?_⟩
    obtain ⟨hI, hT⟩ := fresh_inv (p.noisy M.hNoise M.samples k).cfg τ y u hu
    have hT' : (fresh (p.noisy M.hNoise M.samples k).cfg τ y).times = p.xTimes τ := hT
    rw [(readDeriv_ok (SPar.noisy_stable hst _ _ _) hI).1, specDeriv, hT',
      show (p.noisy M.hNoise M.samples k).cfg.approx = .none from happ]
    simp only
    rw [cellsD_ok (p.noisy M.hNoise M.samples k).cfg hm _ u (hglk k) (p.dirs_ok hv.1 _ _)]
    simp only [orErr, List.map_map]
    rfl

/-- One row of the 'grape' derivatives of a Schroedinger solver. -/
theorem grapeRow_ok (p : SPar n m) (times : List ℝ) (u : Pulse) (ps : List (Matrix n n ℂ)) (hl : ps.length = times.length)
    (t : Nat) (ht : t < times.length) :
    grapeRow p.cfg.nCtrl (p.cfg.dirs times u) times (ps.map some) t =
      .ok (p.ctrl.map fun H => some (some (((times.getD t 0 : ℂ) • ((-Complex.I) • H)) * ps.getD t 0))) := by
  have hD : (p.cfg.dirs times u)[t]? = some (p.ctrl.map fun H => (-Complex.I) • H) := by
    show (List.replicate times.length _)[t]? = _
    rw [List.getElem?_replicate, if_pos ht]
  unfold grapeRow
  rw [hD, List.getElem?_map, List.getElem?_eq_getElem ht, List.getElem?_eq_getElem (by omega : t < ps.length),
    List.getD_eq_getElem _ _ ht, List.getD_eq_getElem _ _ (by omega : t < ps.length)]
  simp [List.map_map, Function.comp_def]
  exact le_refl p.ctrl.length

/-- The 'grape' derivatives of all traces. -/
theorem derivsNoise_grape (p : SPar n m) (τ : List ℝ) (hv : p.Valid τ) (happ : p.approx = .grape) (hcd : p.calcDeriv = false)
    (y u x : Pulse) (M : MC n m) (hb : M.base = p.cfg) (ps : List (List (Matrix n n ℂ)))
    (hps : propsNoise M (p.xTimes τ) y x u = .ok (ps.map fun l => l.map some))
    (hl : ∀ l ∈ ps, l.length = (p.xTimes τ).length) :
    derivsNoise M (p.xTimes τ) y x u = .ok (ps.map fun l => (List.range p.ctrl.length).map fun c =>
      (List.range (p.xTimes τ).length).map fun t =>
        some (some (((((p.xTimes τ).getD t 0 : ℝ) : ℂ) * (-Complex.I)) • (p.ctrl.getD c 0 * l.getD t 0)))) := by
  have hcd' : M.base.calcDeriv = false := by rw [hb]; exact hcd
  obtain ⟨r, hr, hr'⟩ : ∃ r, noiseRun M false (p.xTimes τ) y x u = .ok r ∧ r.map Prod.fst = ps.map fun l => l.map some := by
    unfold propsNoise at hps
    rw [hcd'] at hps
    cases h : noiseRun M false (p.xTimes τ) y x u with
    | error e => rw [h] at hps; simp [bind, Except.bind] at hps
    | ok r =>
      rw [h] at hps
      simp only [bind, Except.bind, pure, Except.pure, Except.ok.injEq] at hps
      exact ⟨r, rfl, hps⟩
  have hgl : (p.xTimes τ).length ≤ (p.cfg.gens u).length := by
    show _ ≤ (schroedGens p.drift p.ctrl u).length
    rw [schroedGens_length, hv.2.1]
  obtain ⟨d₀, hd₀⟩ : ∃ d₀, specDeriv M.base (p.xTimes τ) u = .ok d₀ := by
    rw [hb]
    unfold specDeriv
    rw [show p.cfg.approx = .grape from happ]
    simp only
    rw [cellsP_ok p.cfg hv.2.2 _ u hgl, grapeCells_ok p τ hv u]
    exact ⟨_, rfl⟩
  have htr : ∀ l ∈ ps, grapeTrace M.base (p.xTimes τ) u (l.map some) = .ok ((List.range p.ctrl.length).map fun c =>
      (List.range (p.xTimes τ).length).map fun t =>
        some (some (((((p.xTimes τ).getD t 0 : ℝ) : ℂ) * (-Complex.I)) • (p.ctrl.getD c 0 * l.getD t 0)))) := by
    intro l hlm
    unfold grapeTrace
    rw [hb, inOrder_map_ok _ _ _ _ fun t ht => grapeRow_ok p (p.xTimes τ) u l (hl l hlm) t (List.mem_range.mp ht)]
    simp only [bind, Except.bind, pure, Except.pure, byControl, List.map_map]
    congr 1
    refine List.map_congr_left fun c hc => List.map_congr_left fun t _ => ?_
    have hc' : c < p.ctrl.length := List.mem_range.mp hc
    simp only [Function.comp, List.getD_eq_getElem?_getD, List.getElem?_map, List.getElem?_eq_getElem hc', Option.map_some,
      Option.getD_some, smul_smul, Matrix.smul_mul]
  unfold derivsNoise
  rw [show M.base.approx = .grape by rw [hb]; exact happ]
  simp only [hr, hd₀, bind, Except.bind]
  rw [show (r.map fun out => grapeTrace M.base (p.xTimes τ) u out.1) =
    (r.map Prod.fst).map fun l => grapeTrace M.base (p.xTimes τ) u l by rw [List.map_map]; rfl, hr', List.map_map]
  exact inOrder_map_ok _ _ _ _ fun l hlm => htr l hlm

/-- With the approximation 'grape' the derivatives of every trace are those of the approximation applied to the propagators
of this trace, in the order control, time step - other than `frechet_deriv_propagators` (C32). -/
theorem c94_grape (p : SPar n m) (τ : List ℝ) (hv : p.Valid τ) (happ : p.approx = .grape) (hcd : p.calcDeriv = false)
    (y u x : Pulse) (M : MC n m) (hb : M.base = p.cfg) (ps : List (List (Matrix n n ℂ)))
    (hps : propsNoise M (p.xTimes τ) y x u = .ok (ps.map fun l => l.map some))
    (hl : ∀ l ∈ ps, l.length = (p.xTimes τ).length) :
    ∃ d, derivsNoise M (p.xTimes τ) y x u = .ok d ∧ d.length = ps.length ∧
      ∀ (k c t : Nat) (psk : List (Matrix n n ℂ)) (H P : Matrix n n ℂ) (σ : ℝ), ps[k]? = some psk → p.ctrl[c]? = some H →
        psk[t]? = some P → (p.xTimes τ)[t]? = some σ →
        ∃ dk dkc, d[k]? = some dk ∧ dk[c]? = some dkc ∧ dkc[t]? = some (some (some (((σ : ℂ) * (-Complex.I)) • (H * P)))) := by
  refine ⟨_, derivsNoise_grape p τ hv happ hcd y u x M hb ps hps hl, by simp, fun k c t psk H P σ h1 h2 h3 h4 => ?_⟩
  have hc : c < p.ctrl.length := (List.getElem?_eq_some_iff.mp h2).1
  have ht : t < (p.xTimes τ).length := (List.getElem?_eq_some_iff.mp h4).1
  refine ⟨_, _, by rw [List.getElem?_map, h1]; rfl, by
    simp only [List.getElem?_map, List.getElem?_range hc, Option.map_some]; rfl, ?_⟩
  simp only [List.getElem?_map, List.getElem?_range ht, Option.map_some, List.getD_eq_getElem?_getD, h2, h3, h4,
    Option.getD_some]

/-! ### Cases of C94 -/

/-- `c94_traces` applies: two noise operators, three traces, three time steps, two processes. -/
example (L : Lapack (Fin 2)) : ∃ f, fwdNoise (qubitMC L (.int 2) 3) [1, 2, 3] [[1, 2], [3, 4], [5, 6]] []
    [[1, 2], [3, 4], [5, 6]] = .ok f ∧ ∃ fk, f[2]? = some fk ∧
    (readFwd ((qubitPar L .none false).noisy [!![1, 0; 0, -1], !![0, 1; 1, 0]] ⟨2, 3, 3, fun j k t => 100 * j + 10 * k + t⟩ 2).cfg
      (fresh ((qubitPar L .none false).noisy [!![1, 0; 0, -1], !![0, 1; 1, 0]] ⟨2, 3, 3, fun j k t => 100 * j + 10 * k + t⟩ 2).cfg
        [1, 2, 3] [[1, 2], [3, 4], [5, 6]])).1 = .ok fk := by
  obtain ⟨_, f, _, -, h2, -, -, -, -, h3⟩ := c94_traces (qubitPar L .none false) [1, 2, 3] (qubitPar_valid L _ _)
    [[1, 2], [3, 4], [5, 6]] _ _ [] (qubitPar_amps L _ _ _ rfl (by simp)) (by simp [qubitPar]) (qubitMC L (.int 2) 3) rfl
    (Or.inr ⟨Or.inr ⟨2, by norm_num, rfl⟩, rfl⟩) rfl rfl rfl rfl
  obtain ⟨_, fk, _, -, k1, -, -, k2, -⟩ := h3 2 (by simp [qubitMC])
  exact ⟨f, h2, fk, k1, k2⟩

/-- `c94_derivatives` applies: derivatives computed together with the propagators. -/
example (L : Lapack (Fin 2)) : ∃ d, derivsNoise ⟨(qubitPar L .none true).cfg, [!![1, 0; 0, -1]], .int 1, none, 2,
      ⟨1, 2, 3, fun _ k t => 10 * k + t⟩⟩ [1, 2, 3] [[1, 2], [3, 4], [5, 6]] [] [[1, 2], [3, 4], [5, 6]] = .ok d ∧ d.length = 2 := by
  obtain ⟨d, h1, h2, -⟩ := c94_derivatives (qubitPar L .none true) [1, 2, 3] (qubitPar_valid L _ _) (Or.inl ⟨rfl, rfl⟩) rfl
    [[1, 2], [3, 4], [5, 6]] _ _ [] (qubitPar_amps L _ _ _ rfl (by simp))
    ⟨(qubitPar L .none true).cfg, [!![1, 0; 0, -1]], .int 1, none, 2, ⟨1, 2, 3, fun _ k t => 10 * k + t⟩⟩ rfl rfl rfl rfl rfl rfl
  exact ⟨d, h1, h2⟩

/-- `c94_grape` applies to the traces of `c34_noise_traces`. -/
example (L : Lapack (Fin 2)) : ∃ d, derivsNoise ⟨(qubitPar L .grape false).cfg, [!![1, 0; 0, -1]], .none, none, 2,
      ⟨1, 2, 3, fun _ k t => 10 * k + t⟩⟩ [1, 2, 3] [] [] [[1, 2], [3, 4], [5, 6]] = .ok d ∧ d.length = 2 := by
  obtain ⟨ps, h1, h2, h3⟩ := c34_noise_traces ⟨(qubitPar L .grape false).cfg, [!![1, 0; 0, -1]], .none, none, 2,
      ⟨1, 2, 3, fun _ k t => 10 * k + t⟩⟩ (Or.inr ⟨Or.inl rfl, rfl⟩)
    (by simp [qubitPar, SPar.cfg, schroedCfg]) rfl [1, 2, 3] [] [] [[1, 2], [3, 4], [5, 6]]
    ((qubitPar L .grape false).dirs_ok (by simp [qubitPar]) _ _)
    (by show (schroedGens (qubitPar L .grape false).drift (qubitPar L .grape false).ctrl _).length = 3
        rw [schroedGens_length]; rfl) rfl rfl rfl
  obtain ⟨d, e1, e2, -⟩ := c94_grape (qubitPar L .grape false) [1, 2, 3] (qubitPar_valid L _ _) rfl rfl [] [[1, 2], [3, 4], [5, 6]] []
    _ rfl ps h1 (fun l hl => by
      obtain ⟨k, hk, rfl⟩ := List.mem_iff_getElem.mp hl
      exact (h3 k hk).1)
  exact ⟨d, e1, e2.trans h2⟩

end
end Verif.Solver
