import Verif.Solver.MonteCarlo

/-!
# C33 - C37: noise traces of the Monte Carlo solver
-/

namespace Verif.Solver
open Verif Verif.Operator Matrix

section
variable {n m : Type} [Fintype n] [DecidableEq n]

/-! ## The loops of `_compute_dyn_gen_noise` -/

/-- Entry (trace, time). -/
def entry (gs : List (List (Matrix n n ℂ))) (k t : Nat) : Option (Matrix n n ℂ) := (gs[k]?).bind (·[t]?)

/-- What a list of additions adds at one entry. -/
def added (k t : Nat) (ups : List (Nat × Nat × Matrix n n ℂ)) : Matrix n n ℂ :=
  (ups.map fun p => if p.1 = k ∧ p.2.1 = t then p.2.2 else 0).sum

theorem foldlM_addAt (T : Nat) (ups : List (Nat × Nat × Matrix n n ℂ)) (gs : List (List (Matrix n n ℂ)))
    (hgs : ∀ row ∈ gs, row.length = T) (hups : ∀ p ∈ ups, p.1 < gs.length ∧ p.2.1 < T) :
    ∃ r, ups.foldlM addAt gs = .ok r ∧ r.length = gs.length ∧ (∀ row ∈ r, row.length = T) ∧
      ∀ k t, entry r k t = (entry gs k t).map (· + added k t ups) := by
  induction ups generalizing gs with
  | nil => exact ⟨gs, rfl, rfl, hgs, fun k t => by simp [added]⟩
  | cons p ups ih =>
    obtain ⟨h1, h2⟩ := hups p (by simp)
    have hrow : (gs[p.1]).length = T := hgs _ (List.getElem_mem h1)
    have hstep : addAt gs p = .ok (gs.set p.1 ((gs[p.1]).set p.2.1 ((gs[p.1])[p.2.1]'(by omega) + p.2.2))) := by
      simp only [addAt, List.getElem?_eq_getElem h1]
      rw [List.getElem?_eq_getElem (by omega)]
    obtain ⟨r, hr1, hr2, hr3, hr4⟩ := ih (gs.set p.1 ((gs[p.1]).set p.2.1 ((gs[p.1])[p.2.1]'(by omega) + p.2.2)))
      (by
        intro row hr
        rcases List.mem_or_eq_of_mem_set hr with h | h
        · exact hgs row h
        · rw [h, List.length_set, hrow])
      (fun q hq => by simpa using hups q (by simp [hq]))
    refine ⟨r, ?_, by simpa using hr2, hr3, fun k t => ?_⟩
    · rw [List.foldlM_cons, hstep]; exact hr1
    · rw [hr4]
      unfold entry added
      rw [List.getElem?_set]
      by_cases hk : p.1 = k
      · subst hk
        rw [if_pos rfl, if_pos h1, List.getElem?_eq_getElem h1]
        simp only [Option.bind_some, List.getElem?_set]
        by_cases ht : p.2.1 = t
        · subst ht
          rw [if_pos rfl, if_pos (by omega), List.getElem?_eq_getElem (by omega)]
          simp [add_assoc]
        · rw [if_neg ht]; simp [ht]
      · rw [if_neg hk]; simp [hk]

theorem added_append (k t : Nat) (a b : List (Nat × Nat × Matrix n n ℂ)) :
    added k t (a ++ b) = added k t a + added k t b := by simp [added]

theorem added_flatMap_range (k t N : Nat) (f : Nat → List (Nat × Nat × Matrix n n ℂ)) :
    added k t ((List.range N).flatMap f) = ∑ i ∈ Finset.range N, added k t (f i) := by
  induction N with
  | zero => simp [added]
  | succ N ih =>
    rw [List.range_succ, List.flatMap_append, added_append, ih, Finset.sum_range_succ]
    simp

theorem added_zip (k t k' t' : Nat) (f : Nat → ℝ) (N : Nat) (hN : List (Matrix n n ℂ)) :
    added k t (List.zipWith (fun (s : ℝ) op => (k', t', (-Complex.I * (s : ℂ)) • op)) ((List.range N).map f) hN) =
      if k' = k ∧ t' = t then
        (List.zipWith (fun (s : ℝ) op => (-Complex.I * (s : ℂ)) • op) ((List.range N).map f) hN).sum else 0 := by
  unfold added
  rw [List.map_zipWith]
  by_cases h : k' = k ∧ t' = t
  · simp [h]
  · simp only [h, if_false]
    apply List.sum_eq_zero
    intro M hM
    simp only [List.mem_iff_getElem, List.length_zipWith, List.getElem_zipWith] at hM
    obtain ⟨i, _, rfl⟩ := hM
    rfl

theorem added_noiseUpdates (A : Arr3) (hN : List (Matrix n n ℂ)) (k t : Nat) :
    added k t (noiseUpdates A hN) = if t < A.d0 ∧ k < A.d1 then
      (List.zipWith (fun (s : ℝ) op => (-Complex.I * (s : ℂ)) • op)
        ((List.range A.d2).map fun j => A.val t k j) hN).sum else 0 := by
  unfold noiseUpdates
  rw [added_flatMap_range]
  simp only [added_flatMap_range, added_zip]
  by_cases ht : t < A.d0
  · rw [Finset.sum_eq_single t]
    · by_cases hk : k < A.d1
      · rw [Finset.sum_eq_single k]
        · simp [ht, hk]
        · intro b _ hb; simp [hb]
        · intro h; simp at h; omega
      · rw [if_neg (by tauto)]
        refine Finset.sum_eq_zero fun b hb => ?_
        have : b ≠ k := by simp at hb; omega
        simp [this]
    · intro b _ hb
      exact Finset.sum_eq_zero fun _ _ => by simp [hb]
    · intro h; simp at h; omega
  · rw [if_neg (by tauto)]
    refine Finset.sum_eq_zero fun b hb => Finset.sum_eq_zero fun c _ => ?_
    have : b ≠ t := by simp at hb; omega
    simp [this]

theorem zip_sum_eq (f : Nat → ℝ) (hN : List (Matrix n n ℂ)) :
    (List.zipWith (fun (s : ℝ) op => (-Complex.I * (s : ℂ)) • op) ((List.range hN.length).map f) hN).sum =
      (-Complex.I) • ∑ j : Fin hN.length, ((f j : ℝ) : ℂ) • hN[j] := by
  have : List.zipWith (fun (s : ℝ) op => (-Complex.I * (s : ℂ)) • op) ((List.range hN.length).map f) hN =
      List.ofFn fun j : Fin hN.length => (-Complex.I) • ((f j : ℝ) : ℂ) • hN[j] := by
    apply List.ext_getElem
    · simp
    · intro i h1 h2
      rw [List.getElem_zipWith, List.getElem_ofFn, smul_smul]
      simp
  rw [this, List.sum_ofFn, Finset.smul_sum]

/-- All additions are in range. -/
theorem noiseUpdates_mem (A : Arr3) (hN : List (Matrix n n ℂ)) (p : Nat × Nat × Matrix n n ℂ)
    (hp : p ∈ noiseUpdates A hN) : p.1 < A.d1 ∧ p.2.1 < A.d0 := by
  unfold noiseUpdates at hp
  simp only [List.mem_flatMap, List.mem_range] at hp
  obtain ⟨t, ht, k, hk, hp⟩ := hp
  obtain ⟨i, hi, rfl⟩ := List.mem_iff_getElem.mp hp
  simp [List.getElem_zipWith, ht, hk]

/-- The generators with noise: every entry of the list is the noiseless generator plus the noise term, or just the
noiseless generator beyond the extent of the samples. -/
theorem noiseGens_eq (gens : List (Matrix n n ℂ)) (nTraces : Nat) (A : Arr3) (hN : List (Matrix n n ℂ))
    (h0 : A.d0 ≤ gens.length) (h1 : A.d1 ≤ nTraces) :
    ∃ r, noiseGens gens nTraces A hN = .ok r ∧ r.length = nTraces ∧ ∀ k (hk : k < r.length),
      r[k].length = gens.length ∧ ∀ (t : Nat) (G : Matrix n n ℂ), gens[t]? = some G →
        r[k][t]? = some (G + if t < A.d0 ∧ k < A.d1 then
          (List.zipWith (fun (s : ℝ) op => (-Complex.I * (s : ℂ)) • op)
            ((List.range A.d2).map fun j => A.val t k j) hN).sum else 0) := by
  obtain ⟨r, hr1, hr2, hr3, hr4⟩ := foldlM_addAt gens.length (noiseUpdates A hN) (List.replicate nTraces gens)
    (by simp) (fun p hp => by
      have := noiseUpdates_mem A hN p hp
      simp only [List.length_replicate]
      omega)
  refine ⟨r, hr1, by simpa using hr2, fun k hk => ⟨hr3 _ (List.getElem_mem hk), fun t G hG => ?_⟩⟩
  have hkn : k < nTraces := by simpa [hr2] using hk
  have := hr4 k t
  rw [added_noiseUpdates] at this
  simpa [entry, List.getElem?_eq_getElem hk, List.getElem?_replicate, hkn, hG] using this

/-! ## Traces as noiseless runs -/

/-- The solver without noise but with prescribed generators. -/
def withGens (cfg : Cfg n m) (g : List (Matrix n n ℂ)) : Cfg n m := { cfg with gens := fun _ => g }

theorem stepControls_withGens (cfg : Cfg n m) (g : List (Matrix n n ℂ)) (G : Matrix n n ℂ) (τ : ℝ)
    (Ds : List (Matrix n n ℂ)) (p : Option (Matrix n n ℂ)) :
    stepControls (withGens cfg g) G τ Ds p = stepControls cfg G τ Ds p := by
  induction Ds generalizing p with
  | nil => rfl
  | cons D Ds ih =>
    rw [stepControls, stepControls]
    simp only [ih]
    rfl

theorem stepDeriv_withGens (cfg : Cfg n m) (g g' : List (Matrix n n ℂ)) (dirs : List (List (Matrix n n ℂ)))
    (times : List ℝ) (t : Nat) : stepDeriv (withGens cfg g) g' dirs times t = stepDeriv cfg g' dirs times t := by
  unfold stepDeriv
  simp only [stepControls_withGens]
  rfl

theorem traceRun_withGens (cfg : Cfg n m) (g : List (Matrix n n ℂ)) (wd : Bool) (times : List ℝ) (u : Pulse) :
    traceRun (withGens cfg g) wd times u g = traceRun cfg wd times u g := by
  unfold traceRun
  have : stepDeriv (withGens cfg g) g ((withGens cfg g).dirs times u) times = stepDeriv cfg g (cfg.dirs times u) times :=
    funext fun t => stepDeriv_withGens cfg g g _ times t
  rw [this]
  rfl

/-- A run with the solver's own generators is what the solver without noise reports. -/
theorem traceRun_props (cfg : Cfg n m) (times : List ℝ) (u : Pulse) :
    (traceRun cfg cfg.calcDeriv times u (cfg.gens u)).map Prod.fst = specProps cfg times u := by
  unfold traceRun specProps cells
  cases h : cfg.calcDeriv with
  | true =>
    simp only [if_true]
    rw [show cellsD cfg times u = fill (none, []) ((List.range times.length).map (stepDeriv cfg (cfg.gens u) (cfg.dirs times u) times)) from rfl]
    generalize fill (none, []) ((List.range times.length).map (stepDeriv cfg (cfg.gens u) (cfg.dirs times u) times)) = r
    obtain ⟨a, e⟩ := r
    cases e <;> rfl
  | false =>
    rw [show cellsP cfg times u = fill none ((List.range times.length).map (stepPlain cfg (cfg.gens u) times)) from rfl]
    generalize fill none ((List.range times.length).map (stepPlain cfg (cfg.gens u) times)) = r
    obtain ⟨a, e⟩ := r
    cases e <;> rfl

theorem traceRun_derivs (cfg : Cfg n m) (ha : cfg.approx = .none) (times : List ℝ) (u : Pulse) :
    (traceRun cfg true times u (cfg.gens u)).map Prod.snd = specDeriv cfg times u := by
  unfold traceRun specDeriv
  simp only [if_true, ha]
  rw [show cellsD cfg times u = fill (none, []) ((List.range times.length).map (stepDeriv cfg (cfg.gens u) (cfg.dirs times u) times)) from rfl]
  generalize fill (none, []) ((List.range times.length).map (stepDeriv cfg (cfg.gens u) (cfg.dirs times u) times)) = r
  obtain ⟨a, e⟩ := r
  cases e <;> rfl

/-- With a known method and enough generators a run succeeds. -/
theorem traceRun_ok (cfg : Cfg n m) (hm : cfg.method ≠ .other) (times : List ℝ) (u : Pulse) (g : List (Matrix n n ℂ))
    (hg : times.length ≤ g.length)
    (hd : ∀ t, t < times.length → ∃ Ds, (cfg.dirs times u)[t]? = some Ds ∧ Ds ≠ [] ∧ cfg.nCtrl ≤ Ds.length) :
    ∃ out, traceRun cfg cfg.calcDeriv times u g = .ok out ∧
      out.1 = ((List.range times.length).map fun t => propOf cfg (g.getD t 0) (times.getD t 0)).map some := by
  have h1 := traceRun_props (withGens cfg g) times u
  rw [show (withGens cfg g).gens u = g from rfl, traceRun_withGens, specProps,
    cells_ok (withGens cfg g) hm times u hg hd, show (withGens cfg g).calcDeriv = cfg.calcDeriv from rfl] at h1
  cases h : traceRun cfg cfg.calcDeriv times u g with
  | error e => rw [h] at h1; simp [orErr, Except.map] at h1
  | ok out =>
    rw [h] at h1
    simp only [orErr, Except.map, Except.ok.injEq] at h1
    exact ⟨out, rfl, h1⟩

theorem inOrder_map_ok {α β : Type} (d : α) (l : List β) (f : β → Except PyErr α) (g : β → α)
    (h : ∀ t ∈ l, f t = .ok (g t)) : inOrder d (l.map f) = .ok (l.map g) := by
  simp [inOrder, fill_map_ok d l f g h, orErr]

/-- The exponentials computed by a worker process are those of a run without derivatives. -/
theorem matrixExponentials_eq (cfg : Cfg n m) (times : List ℝ) (u : Pulse) (g : List (Matrix n n ℂ))
    (hm : times ≠ [] → cfg.method ≠ .other) (hg : times.length ≤ g.length) :
    (matrixExponentials cfg g times).map (fun p => ((p, []) : TraceOut n)) = traceRun cfg false times u g := by
  unfold matrixExponentials traceRun
  by_cases ht : times = []
  · subst ht
    simp [fill, orErr, Except.map]
  · have hm' := hm ht
    rw [fill_map_ok none (g.zip times) _ (fun p => some (expProp cfg.L cfg.method cfg.skew p.1 p.2))
      (fun p _ => by rw [exp_expProp _ hm']; rfl)]
    rw [fill_map_ok none (List.range times.length) _
      (fun t => some (expProp cfg.L cfg.method cfg.skew (g.getD t 0) (times.getD t 0)))
      (fun t ht => by
        have ht' := List.mem_range.mp ht
        have hG : t < g.length := by omega
        simp only [stepPlain, List.getElem?_eq_getElem hG, List.getElem?_eq_getElem ht', exp_expProp _ hm']
        simp [List.getElem?_eq_getElem hG, List.getElem?_eq_getElem ht', Except.map])]
    simp only [orErr, Except.map, List.length_map, List.length_zip]
    rw [show times.length - min g.length times.length = 0 by omega]
    simp only [List.replicate_zero, List.append_nil]
    rw [if_neg (by simp)]
    congr 2
    apply List.ext_getElem
    · simp; omega
    · intro i h1 h2
      have h3 : i < times.length := by simpa using h2
      have h4 : i < g.length := by omega
      simp [List.getElem?_eq_getElem h3, List.getElem?_eq_getElem h4]

/-- Lengths of the rows never change in the loops, also when nothing is known about the shape of the samples. -/
theorem foldlM_addAt_length (T : Nat) (ups : List (Nat × Nat × Matrix n n ℂ)) (gs r : List (List (Matrix n n ℂ)))
    (hgs : ∀ row ∈ gs, row.length = T) (h : ups.foldlM addAt gs = .ok r) :
    r.length = gs.length ∧ ∀ row ∈ r, row.length = T := by
  induction ups generalizing gs with
  | nil =>
    simp only [List.foldlM_nil, pure, Except.pure, Except.ok.injEq] at h
    subst h
    exact ⟨rfl, hgs⟩
  | cons p ups ih =>
    rw [List.foldlM_cons] at h
    cases ha : addAt gs p with
    | error e => rw [ha] at h; simp [bind, Except.bind] at h
    | ok gs' =>
      rw [ha] at h
      have hgs' : gs'.length = gs.length ∧ ∀ row ∈ gs', row.length = T := by
        unfold addAt at ha
        split at ha
        · simp at ha
        · rename_i row hrow
          split at ha
          · simp at ha
          · simp only [Except.ok.injEq] at ha
            subst ha
            refine ⟨by simp, fun row' hr => ?_⟩
            rcases List.mem_or_eq_of_mem_set hr with h | h
            · exact hgs _ h
            · rw [h, List.length_set]
              exact hgs _ (List.mem_of_getElem? hrow)
      obtain ⟨h1, h2⟩ := ih gs' hgs'.2 h
      exact ⟨h1.trans hgs'.1, h2⟩

/-- An addition out of range raises IndexError. -/
theorem foldlM_addAt_error (T : Nat) (ups : List (Nat × Nat × Matrix n n ℂ)) (gs : List (List (Matrix n n ℂ)))
    (hgs : ∀ row ∈ gs, row.length = T) (hups : ∃ p ∈ ups, ¬ (p.1 < gs.length ∧ p.2.1 < T)) :
    ups.foldlM addAt gs = .error .indexError := by
  induction ups generalizing gs with
  | nil => simp at hups
  | cons p ups ih =>
    rw [List.foldlM_cons]
    by_cases hp : p.1 < gs.length ∧ p.2.1 < T
    · have hrow : (gs[p.1]'hp.1).length = T := hgs _ (List.getElem_mem hp.1)
      have hstep : addAt gs p = .ok (gs.set p.1 ((gs[p.1]'hp.1).set p.2.1
          ((gs[p.1]'hp.1)[p.2.1]'(by omega) + p.2.2))) := by
        simp only [addAt, List.getElem?_eq_getElem hp.1]
        rw [List.getElem?_eq_getElem (by omega)]
      rw [hstep]
      refine ih _ ?_ ?_
      · intro row hr
        rcases List.mem_or_eq_of_mem_set hr with h | h
        · exact hgs row h
        · rw [h, List.length_set, hrow]
      · obtain ⟨q, hq, hq'⟩ := hups
        rcases List.mem_cons.mp hq with h | h
        · exact absurd (h ▸ hp) hq'
        · exact ⟨q, h, by simpa using hq'⟩
    · have : addAt gs p = .error .indexError := by
        unfold addAt
        by_cases h1 : p.1 < gs.length
        · simp only [List.getElem?_eq_getElem h1]
          rw [List.getElem?_eq_none]
          rw [hgs _ (List.getElem_mem h1)]
          omega
        · rw [List.getElem?_eq_none (by omega)]
      rw [this]
      rfl

theorem dynGenNoise_length (M : MC n m) (y x u : Pulse) (ng : List (List (Matrix n n ℂ)))
    (h : dynGenNoise M y x u = .ok ng) :
    ng.length = M.nTraces ∧ ∀ row ∈ ng, row.length = (M.base.gens u).length := by
  unfold dynGenNoise at h
  cases hA : noiseAmplitudes M y x u with
  | error e => rw [hA] at h; simp [bind, Except.bind] at h
  | ok A =>
    rw [hA] at h
    have := foldlM_addAt_length (M.base.gens u).length (noiseUpdates A M.hNoise)
      (List.replicate M.nTraces (M.base.gens u)) ng (by simp) h
    simpa using this

theorem dynGenNoise_none (M : MC n m) (ha : M.noiseAmp = none) (y x u : Pulse) :
    dynGenNoise M y x u = noiseGens (M.base.gens u) M.nTraces M.samples.transpose M.hNoise := by
  unfold dynGenNoise noiseAmplitudes
  rw [ha]
  rfl

/-! ## C35 -/

/-- The same solver with another number of processes. -/
def MC.withProcs (M : MC n m) (q : Procs) : MC n m := { M with procs := q }

/-- A successful noiseless run shows that the method is known and that there are enough generators. -/
theorem traceRun_false_ok (cfg : Cfg n m) (times : List ℝ) (u : Pulse) (g : List (Matrix n n ℂ)) (b : TraceOut n)
    (h : traceRun cfg false times u g = .ok b) : (times ≠ [] → cfg.method ≠ .other) ∧ times.length ≤ g.length := by
  unfold traceRun at h
  rw [if_neg (by simp)] at h
  have hf : (fill none ((List.range times.length).map (stepPlain cfg g times))).2 = none := by
    simp only at h
    generalize fill none ((List.range times.length).map (stepPlain cfg g times)) = r at h
    obtain ⟨a, e⟩ := r
    cases e with
    | none => rfl
    | some e => simp [orErr] at h
  have hl := fill_none hf
  have key : ∀ t, t < times.length → ∃ P, stepPlain cfg g times t = .ok P := by
    intro t ht
    have := congrArg (fun l => l[t]?) hl
    simp only [List.getElem?_map, List.getElem?_range ht, Option.map_some] at this
    cases hc : (fill none ((List.range times.length).map (stepPlain cfg g times))).1[t]? with
    | none => rw [hc] at this; simp at this
    | some P => rw [hc] at this; simp only [Option.map_some, Option.some.injEq] at this; exact ⟨P, this⟩
  constructor
  · intro hne hm
    have h0 : 0 < times.length := List.length_pos_iff.mpr hne
    obtain ⟨P, hP⟩ := key 0 h0
    unfold stepPlain at hP
    split at hP
    · rw [hm] at hP; simp [Operator.exp, Except.map] at hP
    · simp at hP
  · by_contra hlt
    obtain ⟨P, hP⟩ := key g.length (by omega)
    unfold stepPlain at hP
    rw [List.getElem?_eq_none (le_refl _)] at hP
    simp at hP

/-- **C35** The noise propagators do not depend on the number of processes, whatever the result is (including
exceptions): any positive number of processes and `None` give what a single process gives. -/
theorem c35_processes (M : MC n m) (hwd : M.base.calcDeriv = false) (q : Procs)
    (hq : q = .none ∨ ∃ k : Int, 0 < k ∧ q = .int k) (times : List ℝ) (y x u : Pulse) :
    propsNoise (M.withProcs q) times y x u = propsNoise (M.withProcs (.int 1)) times y x u ∧
    fwdNoise (M.withProcs q) times y x u = fwdNoise (M.withProcs (.int 1)) times y x u ∧
    revNoise (M.withProcs q) times y x u = revNoise (M.withProcs (.int 1)) times y x u := by
  have main : propsNoise (M.withProcs q) times y x u = propsNoise (M.withProcs (.int 1)) times y x u := by
    unfold propsNoise
    rw [show (M.withProcs q).base = M.base from rfl, show (M.withProcs (.int 1)).base = M.base from rfl, hwd]
    congr 1
    unfold noiseRun
    rw [show dynGenNoise (M.withProcs q) y x u = dynGenNoise M y x u from rfl,
      show dynGenNoise (M.withProcs (.int 1)) y x u = dynGenNoise M y x u from rfl]
    cases hng : dynGenNoise M y x u with
    | error e => rfl
    | ok ng =>
      simp only [bind, Except.bind, MC.withProcs]
      cases hb : traceRun M.base false times u (M.base.gens u) with
      | error e => rfl
      | ok b =>
        have h1 : (Procs.int 1).mode = .serial := rfl
        have h2 : q.mode = .serial ∨ q.mode = .parallel := by
          rcases hq with rfl | ⟨k, hk, rfl⟩
          · exact Or.inr rfl
          · unfold Procs.mode
            by_cases h : k = 1 <;> simp [h, hk]
        rw [h1]
        rcases h2 with h2 | h2
        · rw [h2]
        · rw [h2]
          simp only
          rw [if_neg (by simp)]
          congr 1
          refine List.map_congr_left fun k hk => ?_
          obtain ⟨hl1, hl2⟩ := dynGenNoise_length M y x u ng hng
          obtain ⟨hm, hg⟩ := traceRun_false_ok M.base times u _ b hb
          refine matrixExponentials_eq M.base times u _ hm ?_
          have hk' : k < ng.length := by rw [hl1]; exact List.mem_range.mp hk
          rw [List.getD_eq_getElem _ _ hk', hl2 _ (List.getElem_mem hk')]
          exact hg
  refine ⟨main, ?_, ?_⟩
  · unfold fwdNoise; rw [main]; rfl
  · unfold revNoise; rw [main]; rfl

/-- Numbers that are not positive and other values are rejected with ValueError, derivatives in parallel mode with
NotImplementedError (once the generators and the noiseless propagators have been computed). -/
theorem c35_rejected (M : MC n m) (wd : Bool) (times : List ℝ) (y x u : Pulse) (ng : List (List (Matrix n n ℂ)))
    (hng : dynGenNoise M y x u = .ok ng) (b : TraceOut n)
    (hb : traceRun M.base wd times u (M.base.gens u) = .ok b) :
    (∀ q : Procs, (q = .other ∨ ∃ k : Int, k ≤ 0 ∧ q = .int k) →
      noiseRun (M.withProcs q) wd times y x u = .error .valueError) ∧
    (wd = true → ∀ q : Procs, (q = .none ∨ ∃ k : Int, 1 < k ∧ q = .int k) →
      noiseRun (M.withProcs q) wd times y x u = .error .notImplementedError) := by
  constructor
  · intro q hq
    unfold noiseRun
    rw [show dynGenNoise (M.withProcs q) y x u = dynGenNoise M y x u from rfl, hng]
    simp only [bind, Except.bind, MC.withProcs, hb]
    have h1 : q.mode = .invalid := by
      rcases hq with rfl | ⟨k, hk, rfl⟩
      · rfl
      · rw [Procs.mode, if_neg (by omega), if_neg (by omega)]
    rw [h1]
  · intro hwd q hq
    unfold noiseRun
    rw [show dynGenNoise (M.withProcs q) y x u = dynGenNoise M y x u from rfl, hng]
    simp only [bind, Except.bind, MC.withProcs, hb]
    have h1 : q.mode = .parallel := by
      rcases hq with rfl | ⟨k, hk, rfl⟩
      · rfl
      · rw [Procs.mode, if_neg (by omega), if_pos (by omega)]
    rw [h1]
    simp [hwd]

/-! ## C34 -/

/-- Admissible settings of `processes` for the requested computation. -/
def MC.ProcsOk (M : MC n m) : Prop :=
  M.procs = .int 1 ∨ ((M.procs = .none ∨ ∃ k : Int, 0 < k ∧ M.procs = .int k) ∧ M.base.calcDeriv = false)

/-- What the run returns, trace by trace: the propagators of a solver without noise having the generators of the
trace. -/
theorem propsNoise_eq (M : MC n m) (hp : M.ProcsOk) (hm : M.base.method ≠ .other) (times : List ℝ) (y x u : Pulse)
    (hd : ∀ t, t < times.length → ∃ Ds, (M.base.dirs times u)[t]? = some Ds ∧ Ds ≠ [] ∧ M.base.nCtrl ≤ Ds.length)
    (hg : times.length ≤ (M.base.gens u).length)
    (ng : List (List (Matrix n n ℂ))) (hng : dynGenNoise M y x u = .ok ng) :
    propsNoise M times y x u = .ok (ng.map fun g =>
      ((List.range times.length).map fun t => propOf M.base (g.getD t 0) (times.getD t 0)).map some) := by
  have hser : propsNoise M times y x u = propsNoise (M.withProcs (.int 1)) times y x u := by
    rcases hp with h | ⟨h1, h2⟩
    · rw [show M.withProcs (.int 1) = M by rw [← h]; rfl]
    · have := (c35_processes M h2 M.procs h1 times y x u).1
      rwa [show M.withProcs M.procs = M from rfl] at this
  rw [hser]
  obtain ⟨hl1, hl2⟩ := dynGenNoise_length M y x u ng hng
  obtain ⟨b, hb, -⟩ := traceRun_ok M.base hm times u _ hg hd
  have hk : ∀ k, k < M.nTraces → ∃ out, traceRun M.base M.base.calcDeriv times u (ng.getD k []) = .ok out ∧
      out.1 = ((List.range times.length).map fun t => propOf M.base ((ng.getD k []).getD t 0) (times.getD t 0)).map some := by
    intro k hk
    have hk' : k < ng.length := by rw [hl1]; exact hk
    refine traceRun_ok M.base hm times u _ ?_ hd
    rw [List.getD_eq_getElem _ _ hk', hl2 _ (List.getElem_mem hk')]
    exact hg
  choose! out hout1 hout2 using hk
  have hrun : noiseRun (M.withProcs (.int 1)) M.base.calcDeriv times y x u = .ok ((List.range M.nTraces).map out) := by
    unfold noiseRun
    rw [show dynGenNoise (M.withProcs (.int 1)) y x u = dynGenNoise M y x u from rfl, hng]
    simp only [bind, Except.bind, MC.withProcs, hb]
    exact inOrder_map_ok _ _ _ _ fun k hk => hout1 k (List.mem_range.mp hk)
  unfold propsNoise
  rw [show (M.withProcs (.int 1)).base = M.base from rfl, hrun]
  simp only [bind, Except.bind, pure, Except.pure, List.map_map]
  congr 1
  apply List.ext_getElem
  · simp [hl1]
  · intro k h1 h2
    have hk : k < M.nTraces := by simpa using h1
    have hk' : k < ng.length := by simpa using h2
    simp only [List.getElem_map, List.getElem_range, Function.comp_apply]
    rw [hout2 k hk, List.getD_eq_getElem _ _ hk']
    simp only [List.map_map, Function.comp_def]

/-- **C34** Without a noise amplitude function and with one sample per noise operator, trace and time step, trace `k`
has at step `t` the propagator of the noiseless generator plus `-i Σ_j samples[j][k][t] * h_noise[j]`. -/
theorem c34_noise_traces (M : MC n m) (hp : M.ProcsOk) (hm : M.base.method ≠ .other) (ha : M.noiseAmp = none)
    (times : List ℝ) (y x u : Pulse)
    (hd : ∀ t, t < times.length → ∃ Ds, (M.base.dirs times u)[t]? = some Ds ∧ Ds ≠ [] ∧ M.base.nCtrl ≤ Ds.length)
    (hg : (M.base.gens u).length = times.length)
    (h0 : M.samples.d0 = M.hNoise.length) (h1 : M.samples.d1 = M.nTraces) (h2 : M.samples.d2 = times.length) :
    ∃ ps : List (List (Matrix n n ℂ)), propsNoise M times y x u = .ok (ps.map fun l => l.map some) ∧
      ps.length = M.nTraces ∧
      ∀ k (hk : k < ps.length), ps[k].length = times.length ∧
        ∀ (t : Nat) (G : Matrix n n ℂ) (σ : ℝ), (M.base.gens u)[t]? = some G → times[t]? = some σ →
          ps[k][t]? = some (propOf M.base
            (G + (-Complex.I) • ∑ j : Fin M.hNoise.length, ((M.samples.val j k t : ℝ) : ℂ) • M.hNoise[j]) σ) := by
  obtain ⟨ng, hng, hl, hval⟩ := noiseGens_eq (M.base.gens u) M.nTraces M.samples.transpose M.hNoise
    (by simp [Arr3.transpose, h2, hg]) (by simp [Arr3.transpose, h1])
  have hng' : dynGenNoise M y x u = .ok ng := by
    unfold dynGenNoise noiseAmplitudes
    rw [ha]
    exact hng
  refine ⟨ng.map fun g => (List.range times.length).map fun t => propOf M.base (g.getD t 0) (times.getD t 0), ?_,
    by simpa using hl, fun k hk => ⟨by simp, fun t G σ hG hσ => ?_⟩⟩
  · rw [propsNoise_eq M hp hm times y x u hd (le_of_eq hg.symm) ng hng']
    simp [Function.comp_def]
  · have ht : t < times.length := (List.getElem?_eq_some_iff.mp hσ).1
    have hk' : k < ng.length := by simpa using hk
    have := (hval k hk').2 t G hG
    rw [if_pos (by simp only [Arr3.transpose]; omega),
      show M.samples.transpose.d2 = M.hNoise.length from h0, zip_sum_eq] at this
    simp only [List.getElem_map, List.getElem?_map, List.getElem?_range ht, Option.map_some]
    rw [List.getD_eq_getElem?_getD, this, List.getD_eq_getElem?_getD, hσ]
    rfl

/-- Trace `k` does not depend on the samples of the other traces. -/
theorem c34_independent (M : MC n m) (hp : M.ProcsOk) (hm : M.base.method ≠ .other) (ha : M.noiseAmp = none)
    (times : List ℝ) (y x u : Pulse)
    (hd : ∀ t, t < times.length → ∃ Ds, (M.base.dirs times u)[t]? = some Ds ∧ Ds ≠ [] ∧ M.base.nCtrl ≤ Ds.length)
    (hg : (M.base.gens u).length = times.length)
    (h0 : M.samples.d0 = M.hNoise.length) (h1 : M.samples.d1 = M.nTraces) (h2 : M.samples.d2 = times.length)
    (val' : Nat → Nat → Nat → ℝ) (k : Nat) (hk : ∀ j t, val' j k t = M.samples.val j k t) :
    ∃ ps ps', propsNoise M times y x u = .ok ps ∧
      propsNoise { M with samples := { M.samples with val := val' } } times y x u = .ok ps' ∧ ps[k]? = ps'[k]? := by
  obtain ⟨ps, hps, hl, hval⟩ := c34_noise_traces M hp hm ha times y x u hd hg h0 h1 h2
  obtain ⟨ps', hps', hl', hval'⟩ := c34_noise_traces { M with samples := { M.samples with val := val' } } hp hm ha
    times y x u hd hg h0 h1 h2
  refine ⟨_, _, hps, hps', ?_⟩
  replace hl' : ps'.length = M.nTraces := hl'
  simp only [List.getElem?_map]
  by_cases hkn : k < M.nTraces
  · have hk1 : k < ps.length := by omega
    have hk2 : k < ps'.length := by omega
    rw [List.getElem?_eq_getElem hk1, List.getElem?_eq_getElem hk2]
    simp only [Option.map_some, Option.some.injEq]
    congr 1
    apply List.ext_getElem
    · rw [(hval k hk1).1, (hval' k hk2).1]
    · intro t ht1 ht2
      have ht : t < times.length := by rw [← (hval k hk1).1]; exact ht1
      have hG : t < (M.base.gens u).length := by omega
      have e1 := (hval k hk1).2 t _ _ (List.getElem?_eq_getElem hG) (List.getElem?_eq_getElem ht)
      have e2 := (hval' k hk2).2 t _ _ (List.getElem?_eq_getElem hG) (List.getElem?_eq_getElem ht)
      simp only [hk] at e2
      rw [List.getElem?_eq_getElem ht1] at e1
      rw [List.getElem?_eq_getElem ht2] at e2
      exact Option.some.inj (e1.trans e2.symm)
  · rw [List.getElem?_eq_none (by omega), List.getElem?_eq_none (by omega)]

/-! ## C33 -/

/-- The forward propagation succeeds if all propagators are there. -/
theorem specFwd_of_cells (cfg : Cfg n m) (times : List ℝ) (u : Pulse) (ps : List (Matrix n n ℂ))
    (h : cells cfg times u = (ps.map some, none)) :
    specFwd cfg times u = .ok (cfg.init :: (fwdLoop (ps.map some) cfg.init).1) := by
  simp only [specFwd, h, (fwdLoop_some ps cfg.init).1, orErr]

theorem fwdNoise_eq (M : MC n m) (times : List ℝ) (y x u : Pulse) (ps : List (List (Matrix n n ℂ)))
    (h : propsNoise M times y x u = .ok (ps.map fun l => l.map some)) (f : List (Matrix n m ℂ))
    (hf : specFwd M.base times u = .ok f) :
    fwdNoise M times y x u = .ok (ps.map fun l => M.base.init :: (fwdLoop (l.map some) M.base.init).1) := by
  unfold fwdNoise
  rw [h, hf]
  simp only [bind, Except.bind, List.map_map]
  refine inOrder_map_ok _ _ _ _ fun l _ => ?_
  simp [traceFwd, (fwdLoop_some l M.base.init).1, orErr]

theorem revNoise_eq (M : MC n m) (times : List ℝ) (y x u : Pulse) (ps : List (List (Matrix n n ℂ)))
    (h : propsNoise M times y x u = .ok (ps.map fun l => l.map some)) (r : List (Matrix n n ℂ))
    (hr : specRev M.base times u = .ok r) :
    revNoise M times y x u = .ok (ps.map fun l => (1 : Matrix n n ℂ) :: (revLoop ((l.map some).reverse) 1).1) := by
  unfold revNoise
  rw [h, hr]
  simp only [bind, Except.bind, List.map_map]
  refine inOrder_map_ok _ _ _ _ fun l _ => ?_
  simp only [Function.comp_apply, traceRev, ← List.map_reverse, (revLoop_some l.reverse 1).1, orErr]

theorem revLoop_isReversed (ps : List (Matrix n n ℂ)) :
    IsReversed ps ((1 : Matrix n n ℂ) :: (revLoop ((ps.map some).reverse) 1).1) := by
  rw [← List.map_reverse]
  refine ⟨by rw [List.length_cons, (revLoop_some ps.reverse 1).2, List.length_reverse], rfl, fun i hi => ?_⟩
  obtain ⟨R, h1, h2⟩ := revLoop_spec ps.reverse 1 i (by simpa using hi)
  refine ⟨R, h1, ?_⟩
  rw [h2, List.getElem_reverse]

/-- **C34** The state of trace `k` after `t` steps is the product of the first `t` propagators of the same trace with the
initial state, and its reversed propagators are the products of its last propagators. -/
theorem c34_forward (M : MC n m) (hp : M.ProcsOk) (hm : M.base.method ≠ .other) (ha : M.noiseAmp = none)
    (times : List ℝ) (y x u : Pulse) (hτ : times ≠ [])
    (hd : ∀ t, t < times.length → ∃ Ds, (M.base.dirs times u)[t]? = some Ds ∧ Ds ≠ [] ∧ M.base.nCtrl ≤ Ds.length)
    (hg : (M.base.gens u).length = times.length)
    (h0 : M.samples.d0 = M.hNoise.length) (h1 : M.samples.d1 = M.nTraces) (h2 : M.samples.d2 = times.length) :
    ∃ (ps : List (List (Matrix n n ℂ))) (f : List (List (Matrix n m ℂ))) (r : List (List (Matrix n n ℂ))),
      propsNoise M times y x u = .ok (ps.map fun l => l.map some) ∧ fwdNoise M times y x u = .ok f ∧
      revNoise M times y x u = .ok r ∧ ps.length = M.nTraces ∧ f.length = M.nTraces ∧ r.length = M.nTraces ∧
      (∀ (k : Nat) Ps F, ps[k]? = some Ps → f[k]? = some F → IsForward M.base.init Ps F) ∧
      ∀ (k : Nat) Ps R, ps[k]? = some Ps → r[k]? = some R → IsReversed Ps R := by
  obtain ⟨ps, hps, hl, -⟩ := c34_noise_traces M hp hm ha times y x u hd hg h0 h1 h2
  obtain ⟨r₀, hr₀, -⟩ := revOf_isReversed ((List.range times.length).map fun t =>
    propOf M.base ((M.base.gens u).getD t 0) (times.getD t 0)) (by simpa using hτ)
  have hspecRev : specRev M.base times u = .ok r₀ := by
    rw [specRev, cells_ok M.base hm times u (le_of_eq hg.symm) hd]
    exact hr₀
  refine ⟨ps, ps.map fun l => M.base.init :: (fwdLoop (l.map some) M.base.init).1,
    ps.map fun l => (1 : Matrix n n ℂ) :: (revLoop ((l.map some).reverse) 1).1, hps, fwdNoise_eq M times y x u ps hps _
      (specFwd_of_cells _ _ _ _ (cells_ok M.base hm times u (le_of_eq hg.symm) hd)),
    revNoise_eq M times y x u ps hps r₀ hspecRev, hl, by simp [hl], by simp [hl],
    fun k Ps F e1 e2 => ?_, fun k Ps R e1 e2 => ?_⟩
  all_goals
    rw [List.getElem?_map, e1] at e2
    simp only [Option.map_some, Option.some.injEq] at e2
    rw [← e2]
  · exact fwdLoop_isForward _ _
  · exact revLoop_isReversed _

/-- **C33** With noise samples that are all zero every trace reports exactly what the noiseless solver reports. -/
theorem c33_zero_noise (p : SPar n m) (τ : List ℝ) (hv : p.Valid τ) (y u x : Pulse)
    (hu : ampsOf p.cfg τ y = some u) (hτ : p.xTimes τ ≠ []) (M : MC n m) (hb : M.base = p.cfg) (hp : M.ProcsOk)
    (ha : M.noiseAmp = none) (h1 : M.samples.d1 ≤ M.nTraces) (h2 : M.samples.d2 ≤ (p.xTimes τ).length)
    (hz : ∀ i j k, M.samples.val i j k = 0) :
    ∃ (ps : List (Option (Matrix n n ℂ))) (f : List (Matrix n m ℂ)) (r : List (Matrix n n ℂ)),
      (readProps p.cfg (fresh p.cfg τ y)).1 = .ok ps ∧ (readFwd p.cfg (fresh p.cfg τ y)).1 = .ok f ∧
      (readRev p.cfg (fresh p.cfg τ y)).1 = .ok r ∧
      propsNoise M (p.xTimes τ) y x u = .ok (List.replicate M.nTraces ps) ∧
      fwdNoise M (p.xTimes τ) y x u = .ok (List.replicate M.nTraces f) ∧
      revNoise M (p.xTimes τ) y x u = .ok (List.replicate M.nTraces r) := by
  obtain ⟨v1, v2, v3⟩ := fresh_values p.cfg τ y u hu
  have hT' : p.cfg.xTimes τ = p.xTimes τ := rfl
  have hglen : (M.base.gens u).length = (p.xTimes τ).length := by
    rw [hb]
    show (schroedGens p.drift p.ctrl u).length = _
    rw [schroedGens_length, hv.2.1]
  have hm : M.base.method ≠ .other := by rw [hb]; exact hv.2.2
  have hd : ∀ t, t < (p.xTimes τ).length → ∃ Ds, (M.base.dirs (p.xTimes τ) u)[t]? = some Ds ∧ Ds ≠ [] ∧ M.base.nCtrl ≤ Ds.length := by
    rw [hb]; exact p.dirs_ok hv.1 _ _
  obtain ⟨ng, hng, hl, hval⟩ := noiseGens_eq (M.base.gens u) M.nTraces M.samples.transpose M.hNoise
    (by simp only [Arr3.transpose]; omega) (by simpa [Arr3.transpose] using h1)
  have hngr : ng = List.replicate M.nTraces (M.base.gens u) := by
    apply List.ext_getElem
    · simp [hl]
    · intro k hk1 hk2
      rw [List.getElem_replicate]
      apply List.ext_getElem
      · exact (hval k hk1).1
      · intro t ht1 ht2
        have := (hval k hk1).2 t _ (List.getElem?_eq_getElem ht2)
        rw [List.getElem?_eq_getElem ht1] at this
        have hz' : (List.zipWith (fun (s : ℝ) (op : Matrix n n ℂ) => (-Complex.I * (s : ℂ)) • op)
            ((List.range M.samples.transpose.d2).map fun j => M.samples.transpose.val t k j) M.hNoise).sum = 0 := by
          apply List.sum_eq_zero
          intro A hA
          obtain ⟨i, hi, rfl⟩ := List.mem_iff_getElem.mp hA
          simp [List.getElem_zipWith, Arr3.transpose, hz]
        rw [hz'] at this
        simpa using this
  have hng' : dynGenNoise M y x u = .ok ng := by
    unfold dynGenNoise noiseAmplitudes
    rw [ha]
    exact hng
  have hcells := cells_ok M.base hm (p.xTimes τ) u (le_of_eq hglen.symm) hd
  have hpn := propsNoise_eq M hp hm (p.xTimes τ) y x u hd (le_of_eq hglen.symm) ng hng'
  set ps : List (Matrix n n ℂ) := (List.range (p.xTimes τ).length).map fun t =>
    propOf M.base ((M.base.gens u).getD t 0) ((p.xTimes τ).getD t 0) with hps
  have hpn' : propsNoise M (p.xTimes τ) y x u = .ok ((List.replicate M.nTraces ps).map fun l => l.map some) := by
    rw [hpn, hngr]
    simp [hps]
  have hne : ps ≠ [] := by
    intro h
    have := congrArg List.length h
    rw [hps] at this
    simp at this
    exact hτ this
  obtain ⟨r, hr, -⟩ := revOf_isReversed ps hne
  have hspecRev : specRev M.base (p.xTimes τ) u = .ok r := by
    rw [specRev, hcells]; exact hr
  refine ⟨ps.map some, M.base.init :: (fwdLoop (ps.map some) M.base.init).1, r, ?_, ?_, ?_, ?_, ?_, ?_⟩
  · rw [v1, specProps, hT', ← hb, hcells]; rfl
  · rw [v2, specFwd, hT', ← hb, hcells]
    simp [orErr, (fwdLoop_some ps M.base.init).1]
  · rw [v3, hT', ← hb, hspecRev]
  · rw [hpn']; simp
  · rw [fwdNoise_eq M _ y x u _ hpn' _ (specFwd_of_cells _ _ _ _ hcells)]; simp
  · rw [revNoise_eq M _ y x u _ hpn' r hspecRev]
    have hr' : r = (1 : Matrix n n ℂ) :: (revLoop ((ps.map some).reverse) 1).1 := by
      cases hc : ps with
      | nil => exact absurd hc hne
      | cons P ps' =>
        rw [hc] at hr
        have h0 := (revLoop_some (P :: ps').reverse (1 : Matrix n n ℂ)).1
        rw [List.map_reverse] at h0
        simp only [List.map_cons, revOf, orErr] at hr h0
        rw [h0] at hr
        simp only [Except.ok.injEq] at hr
        rw [← hr]
        simp
    rw [hr']
    simp

/-! ## C36 -/

/-- Samples for more time steps or more traces than there are raise IndexError; the converse, too few samples, is not
reported (`c36_violated`). -/
theorem c36_too_many_samples_partial (M : MC n m) (ha : M.noiseAmp = none) (y x u : Pulse)
    (hpos : 0 < M.hNoise.length ∧ 0 < M.samples.d0 ∧ 0 < M.samples.d1 ∧ 0 < M.samples.d2)
    (hbad : M.samples.d2 > (M.base.gens u).length ∨ M.samples.d1 > M.nTraces) (wd : Bool) (times : List ℝ) :
    dynGenNoise M y x u = .error .indexError ∧ noiseRun M wd times y x u = .error .indexError := by
  have main : dynGenNoise M y x u = .error .indexError := by
    unfold dynGenNoise noiseAmplitudes
    rw [ha]
    refine foldlM_addAt_error (M.base.gens u).length _ _ (by simp) ?_
    have hmem : ∀ t k, t < M.samples.d2 → k < M.samples.d1 →
        ∃ p ∈ noiseUpdates M.samples.transpose M.hNoise, p.1 = k ∧ p.2.1 = t := by
      intro t k ht hk
      refine ⟨(k, t, (-Complex.I * ((M.samples.transpose.val t k 0 : ℝ) : ℂ)) • M.hNoise[0]'hpos.1), ?_, rfl, rfl⟩
      unfold noiseUpdates
      simp only [List.mem_flatMap, List.mem_range]
      refine ⟨t, ht, k, hk, List.mem_iff_getElem.mpr ⟨0, ?_, ?_⟩⟩
      · simp [Arr3.transpose]; omega
      · simp [List.getElem_zipWith]
    rcases hbad with h | h
    · obtain ⟨p, hp, h1, h2⟩ := hmem (M.samples.d2 - 1) 0 (by omega) hpos.2.2.1
      exact ⟨p, hp, by omega⟩
    · obtain ⟨p, hp, h1, h2⟩ := hmem 0 (M.samples.d1 - 1) hpos.2.2.2 (by omega)
      refine ⟨p, hp, ?_⟩
      simp only [List.length_replicate]
      omega
  exact ⟨main, by unfold noiseRun; rw [main]; rfl⟩

/-- **C36 is violated**: with fewer samples than time steps nothing is reported and every later step of every trace is
propagated without noise. -/
theorem c36_violated (M : MC n m) (hp : M.ProcsOk) (hm : M.base.method ≠ .other) (ha : M.noiseAmp = none)
    (times : List ℝ) (y x u : Pulse)
    (hd : ∀ t, t < times.length → ∃ Ds, (M.base.dirs times u)[t]? = some Ds ∧ Ds ≠ [] ∧ M.base.nCtrl ≤ Ds.length)
    (hg : (M.base.gens u).length = times.length)
    (h1 : M.samples.d1 = M.nTraces) (h2 : M.samples.d2 < times.length) :
    ∃ ps : List (List (Matrix n n ℂ)), propsNoise M times y x u = .ok (ps.map fun l => l.map some) ∧
      ps.length = M.nTraces ∧ ∀ k (hk : k < ps.length) (t : Nat) (G : Matrix n n ℂ) (σ : ℝ),
        M.samples.d2 ≤ t → (M.base.gens u)[t]? = some G → times[t]? = some σ →
        ps[k][t]? = some (propOf M.base G σ) := by
  obtain ⟨ng, hng, hl, hval⟩ := noiseGens_eq (M.base.gens u) M.nTraces M.samples.transpose M.hNoise
    (by simp only [Arr3.transpose]; omega) (by simp [Arr3.transpose, h1])
  have hng' : dynGenNoise M y x u = .ok ng := by
    unfold dynGenNoise noiseAmplitudes
    rw [ha]
    exact hng
  refine ⟨ng.map fun g => (List.range times.length).map fun t => propOf M.base (g.getD t 0) (times.getD t 0), ?_,
    by simpa using hl, fun k hk t G σ hle hG hσ => ?_⟩
  · rw [propsNoise_eq M hp hm times y x u hd (le_of_eq hg.symm) ng hng']
    simp [Function.comp_def]
  · have ht : t < times.length := (List.getElem?_eq_some_iff.mp hσ).1
    have hk' : k < ng.length := by simpa using hk
    have := (hval k hk').2 t G hG
    rw [if_neg (by simp only [Arr3.transpose]; omega), add_zero] at this
    simp only [List.getElem_map, List.getElem?_map, List.getElem?_range ht, Option.map_some]
    rw [List.getD_eq_getElem?_getD, this, List.getD_eq_getElem?_getD, hσ]
    rfl

/-! ## C37 -/

/-- Specification: transferred parameters plus the noise samples of trace `k`. -/
def noisyPars (x : Pulse) (S : Arr3) (k : Nat) : Pulse :=
  x.mapIdx fun t row => row.mapIdx fun j v => v + S.val j k t

theorem hamiltonian_eq_sum (H₀ : Matrix n n ℂ) (ctrl : List (Matrix n n ℂ)) (row : List ℝ)
    (h : row.length = ctrl.length) :
    hamiltonian H₀ ctrl row = H₀ + ∑ j : Fin ctrl.length, ((row.getD j 0 : ℝ) : ℂ) • ctrl[j] := by
  unfold hamiltonian
  congr 1
  have : List.zipWith (fun (a : ℝ) (H : Matrix n n ℂ) => (a : ℂ) • H) row ctrl =
      List.ofFn fun j : Fin ctrl.length => ((row.getD j 0 : ℝ) : ℂ) • ctrl[j] := by
    apply List.ext_getElem
    · simp [h]
    · intro i h1 h2
      have hi : i < row.length := by simp at h1; omega
      rw [List.getElem_zipWith, List.getElem_ofFn]
      simp [List.getElem?_eq_getElem hi]
  rw [this, List.sum_ofFn]

theorem addNoise_eq (x : Pulse) (S : Arr3) (k : Nat) (hx : x.length = S.d2) (hrow : ∀ row ∈ x, row.length = S.d0) :
    addNoise x S.transpose k = .ok (noisyPars x S k) := by
  unfold addNoise
  rw [if_pos ⟨hx, hrow⟩]
  congr 1
  unfold noisyPars
  rw [List.mapIdx_eq_zipIdx_map]
  refine List.map_congr_left fun q _ => ?_
  obtain ⟨r, i⟩ := q
  simp only
  rw [List.mapIdx_eq_zipIdx_map]
  rfl

/-- The noise amplitudes of the control noise solver: the difference between the amplitudes with and without noise. -/
theorem controlNoise_amplitudes (p : SPar n m) (procs : Procs) (nTraces : Nat) (S : Arr3) (y x u : Pulse)
    (hx : x.length = S.d2) (hrow : ∀ row ∈ x, row.length = S.d0) (hul : u.length = x.length) (hS1 : S.d1 = nTraces)
    (a : Nat → Raw) (ha : ∀ k, k < nTraces → p.amp (noisyPars x S k) = .ok (a k))
    (hshape : ∀ k, k < nTraces → (a k).ndim = 2 ∧ (a k).rows.length = x.length ∧ (a k).cols = p.ctrl.length) :
    ∃ A : Arr3, noiseAmplitudes (mcControlNoise p procs nTraces S) y x u = .ok A ∧
      A.d0 = S.d2 ∧ A.d1 = S.d1 ∧ A.d2 = p.ctrl.length ∧ ∀ t k j, k < S.d1 → t < u.length → t < (a k).rows.length →
        j < (u.getD t []).length → j < ((a k).rows.getD t []).length →
        A.val t k j = ((a k).rows.getD t []).getD j 0 - (u.getD t []).getD j 0 := by
  have htr : ∀ k ∈ List.range S.transpose.d1, controlNoiseTrace p.amp S.transpose x u p.ctrl.length k =
      .ok (List.zipWith (fun r s => List.zipWith (fun (p q : ℝ) => p - q) r s) (a k).rows u) := by
    intro k hk
    have hk' : k < nTraces := by rw [← hS1]; exact List.mem_range.mp hk
    obtain ⟨h1, h2, h3⟩ := hshape k hk'
    unfold controlNoiseTrace
    rw [addNoise_eq x S k hx hrow]
    simp only [bind, Except.bind, ha k hk']
    rw [if_pos ⟨h1, by omega, h3, by rw [h2, hx]; rfl⟩]
    rfl
  refine ⟨⟨S.d2, S.d1, p.ctrl.length, fun t k c =>
    ((((List.range S.d1).map fun k => List.zipWith (fun r s => List.zipWith (fun (p q : ℝ) => p - q) r s)
      (a k).rows u).getD k []).getD t []).getD c 0⟩, ?_, rfl, rfl, rfl, ?_⟩
  · unfold noiseAmplitudes mcControlNoise
    simp only [controlNoiseAmp]
    rw [inOrder_map_ok _ _ _ _ htr]
    rfl
  · intro t k j hk ht1 ht2 hj1 hj2
    rw [List.getD_eq_getElem _ _ ht1] at hj1
    rw [List.getD_eq_getElem _ _ ht2] at hj2
    simp only [List.getD_eq_getElem?_getD, List.getElem?_map, List.getElem?_range hk, Option.map_some,
      Option.getD_some]
    have e1 : (List.zipWith (fun r s => List.zipWith (fun (p q : ℝ) => p - q) r s) (a k).rows u)[t]? =
        some (List.zipWith (fun (p q : ℝ) => p - q) (a k).rows[t] u[t]) := by
      rw [List.getElem?_eq_getElem (by rw [List.length_zipWith]; omega), List.getElem_zipWith]
    have e2 : (List.zipWith (fun (p q : ℝ) => p - q) (a k).rows[t] u[t])[j]? =
        some ((a k).rows[t][j] - u[t][j]) := by
      rw [List.getElem?_eq_getElem (by rw [List.length_zipWith]; omega), List.getElem_zipWith]
    rw [e1, Option.getD_some, e2, Option.getD_some,
      List.getElem?_eq_getElem ht1, List.getElem?_eq_getElem ht2, Option.getD_some, Option.getD_some,
      List.getElem?_eq_getElem hj1, List.getElem?_eq_getElem hj2, Option.getD_some, Option.getD_some]

/-- **C37** With control noise, for any amplitude function: the generators of trace `k` are those of the noiseless
solver for the amplitudes of the transferred parameters plus the noise of that trace. -/
theorem c37_control_noise (p : SPar n m) (procs : Procs) (nTraces : Nat) (S : Arr3) (y x u : Pulse)
    (hx : x.length = S.d2) (hrow : ∀ row ∈ x, row.length = S.d0) (hul : u.length = x.length)
    (hu : ∀ row ∈ u, row.length = p.ctrl.length) (hdl : p.drift.length = x.length) (hS1 : S.d1 = nTraces)
    (a : Nat → Raw) (ha : ∀ k, k < nTraces → p.amp (noisyPars x S k) = .ok (a k))
    (hshape : ∀ k, k < nTraces → (a k).ndim = 2 ∧ (a k).rows.length = x.length ∧ (a k).cols = p.ctrl.length) :
    dynGenNoise (mcControlNoise p procs nTraces S) y x u =
      .ok ((List.range nTraces).map fun k => schroedGens p.drift p.ctrl (a k).rows) := by
  obtain ⟨A, hamp, hA0, hA1, hA2, hA⟩ := controlNoise_amplitudes p procs nTraces S y x u hx hrow hul hS1 a ha hshape
  unfold dynGenNoise
  rw [hamp]
  simp only [bind, Except.bind]
  obtain ⟨ng, hng, hl, hval⟩ := noiseGens_eq (schroedGens p.drift p.ctrl u) nTraces A p.ctrl
    (by rw [schroedGens_length]; omega) (by omega)
  refine hng.trans ?_
  congr 1
  apply List.ext_getElem
  · simp [hl]
  · intro k hk1 hk2
    have hk : k < nTraces := by omega
    obtain ⟨h1, h2, h3⟩ := hshape k hk
    rw [List.getElem_map, List.getElem_range]
    apply List.ext_getElem
    · rw [(hval k hk1).1, schroedGens_length, schroedGens_length]
    · intro t ht1 ht2
      have ht : t < x.length := by rw [schroedGens_length] at ht2; omega
      have htd : t < p.drift.length := by omega
      have htu : t < u.length := by omega
      have hta : t < (a k).rows.length := by omega
      have hur := hu _ (List.getElem_mem htu)
      have har : (a k).rows[t].length = p.ctrl.length := ((a k).rect h1 _ (List.getElem_mem hta)).trans h3
      have e1 := (hval k hk1).2 t _ (schroedGens_getElem p.drift p.ctrl u t _ _ (List.getElem?_eq_getElem htd)
        (List.getElem?_eq_getElem htu) hur)
      have e2 := schroedGens_getElem p.drift p.ctrl (a k).rows t _ _ (List.getElem?_eq_getElem htd)
        (List.getElem?_eq_getElem hta) har
      rw [List.getElem?_eq_getElem ht1, if_pos (by omega), hA2, zip_sum_eq] at e1
      rw [List.getElem?_eq_getElem ht2] at e2
      rw [Option.some.inj e1, Option.some.inj e2, hamiltonian_eq_sum _ _ _ hur, hamiltonian_eq_sum _ _ _ har,
        ← smul_add, add_assoc, ← Finset.sum_add_distrib]
      congr 2
      refine Finset.sum_congr rfl fun j _ => ?_
      rw [← add_smul, ← Complex.ofReal_add]
      congr 2
      have hj1 : (j : Nat) < (u.getD t []).length := by rw [List.getD_eq_getElem _ _ htu, hur]; exact j.2
      have hj2 : (j : Nat) < ((a k).rows.getD t []).length := by rw [List.getD_eq_getElem _ _ hta, har]; exact j.2
      rw [hA t k j (by omega) htu hta hj1 hj2, List.getD_eq_getElem _ _ htu, List.getD_eq_getElem _ _ hta]
      ring

/-! ## Examples -/

/-- Three traces of noise on two operators for the qubit of `qubitPar`: sample = 100 operator + 10 trace + time. -/
noncomputable def qubitMC (L : Lapack (Fin 2)) (procs : Procs) (steps : Nat) : MC (Fin 2) (Fin 2) :=
  ⟨(qubitPar L .none false).cfg, [!![1, 0; 0, -1], !![0, 1; 1, 0]], procs, none, 3,
    ⟨2, 3, steps, fun j k t => 100 * j + 10 * k + t⟩⟩

theorem qubitMC_dirs (L : Lapack (Fin 2)) (procs : Procs) (s : Nat) (u : Pulse) (t : Nat)
    (ht : t < ([1, 2, 3] : List ℝ).length) :
    ∃ Ds, ((qubitMC L procs s).base.dirs [1, 2, 3] u)[t]? = some Ds ∧ Ds ≠ [] ∧ (qubitMC L procs s).base.nCtrl ≤ Ds.length :=
  (qubitPar L .none false).dirs_ok (by simp [qubitPar]) _ _ t ht

theorem qubitMC_gens (L : Lapack (Fin 2)) (procs : Procs) (s : Nat) (u : Pulse) :
    ((qubitMC L procs s).base.gens u).length = 3 := by
  show (schroedGens (qubitPar L .none false).drift (qubitPar L .none false).ctrl u).length = 3
  rw [schroedGens_length]; rfl

/-- `c34_noise_traces` applies; with four worker processes. -/
example (L : Lapack (Fin 2)) (y x : Pulse) : ∃ ps : List (List (Matrix (Fin 2) (Fin 2) ℂ)),
    propsNoise (qubitMC L (.int 4) 3) [1, 2, 3] y x [[1, 2], [3, 4], [5, 6]] = .ok (ps.map fun l => l.map some) ∧
      ps.length = 3 := by
  obtain ⟨ps, h1, h2, -⟩ := c34_noise_traces (qubitMC L (.int 4) 3) (Or.inr ⟨Or.inr ⟨4, by norm_num, rfl⟩, rfl⟩)
    (by simp [qubitMC, qubitPar, SPar.cfg, schroedCfg]) rfl [1, 2, 3] y x [[1, 2], [3, 4], [5, 6]]
    (qubitMC_dirs L _ _ _) (qubitMC_gens L _ _ _) rfl rfl rfl
  exact ⟨ps, h1, h2⟩

/-- `c34_forward` applies: three traces over three time steps. -/
example (L : Lapack (Fin 2)) (y x : Pulse) :
    ∃ f r, fwdNoise (qubitMC L (.int 4) 3) [1, 2, 3] y x [[1, 2], [3, 4], [5, 6]] = .ok f ∧
      revNoise (qubitMC L (.int 4) 3) [1, 2, 3] y x [[1, 2], [3, 4], [5, 6]] = .ok r ∧ f.length = 3 ∧ r.length = 3 := by
  obtain ⟨ps, f, r, -, h1, h2, -, h3, h4, -⟩ := c34_forward (qubitMC L (.int 4) 3) (Or.inr ⟨Or.inr ⟨4, by norm_num, rfl⟩, rfl⟩)
    (by simp [qubitMC, qubitPar, SPar.cfg, schroedCfg]) rfl [1, 2, 3] y x [[1, 2], [3, 4], [5, 6]] (by simp)
    (qubitMC_dirs L _ _ _) (qubitMC_gens L _ _ _) rfl rfl rfl
  exact ⟨f, r, h1, h2, h3, h4⟩

/-- `c35_processes` applies. -/
example (L : Lapack (Fin 2)) (y x u : Pulse) :
    propsNoise (qubitMC L .none 3) [1, 2, 3] y x u = propsNoise (qubitMC L (.int 1) 3) [1, 2, 3] y x u :=
  (c35_processes (qubitMC L .none 3) rfl .none (Or.inl rfl) [1, 2, 3] y x u).1

/-- `c35_rejected` applies: zero processes. -/
example (L : Lapack (Fin 2)) (y x : Pulse) :
    noiseRun (qubitMC L (.int 0) 3) false [1, 2, 3] y x [[1, 2], [3, 4], [5, 6]] = .error .valueError := by
  obtain ⟨ng, hng, -, -⟩ := noiseGens_eq ((qubitMC L (.int 0) 3).base.gens [[1, 2], [3, 4], [5, 6]]) 3
    (qubitMC L (.int 0) 3).samples.transpose (qubitMC L (.int 0) 3).hNoise
    (by rw [qubitMC_gens]; exact le_refl 3) (le_refl _)
  obtain ⟨b, hb, -⟩ := traceRun_ok (qubitMC L (.int 0) 3).base (by simp [qubitMC, qubitPar, SPar.cfg, schroedCfg])
    [1, 2, 3] [[1, 2], [3, 4], [5, 6]] ((qubitMC L (.int 0) 3).base.gens [[1, 2], [3, 4], [5, 6]]) (by rw [qubitMC_gens]; exact le_refl 3)
    (qubitMC_dirs L _ _ _)
  exact (c35_rejected (qubitMC L (.int 0) 3) false [1, 2, 3] y x _ ng
    ((dynGenNoise_none _ rfl y x _).trans hng) b hb).1 (.int 0) (Or.inr ⟨0, le_refl _, rfl⟩)

/-- `c36_violated` applies: two samples for three time steps; the last propagator of every trace is noiseless. -/
example (L : Lapack (Fin 2)) (y x : Pulse) : ∃ ps : List (List (Matrix (Fin 2) (Fin 2) ℂ)),
    propsNoise (qubitMC L (.int 1) 2) [1, 2, 3] y x [[1, 2], [3, 4], [5, 6]] = .ok (ps.map fun l => l.map some) ∧
      ps.length = 3 := by
  obtain ⟨ps, h1, h2, -⟩ := c36_violated (qubitMC L (.int 1) 2) (Or.inl rfl)
    (by simp [qubitMC, qubitPar, SPar.cfg, schroedCfg]) rfl [1, 2, 3] y x [[1, 2], [3, 4], [5, 6]]
    (qubitMC_dirs L _ _ _) (qubitMC_gens L _ _ _) rfl
    (by show 2 < 3; norm_num)
  exact ⟨ps, h1, h2⟩

/-- `c36_too_many_samples_partial` applies: four samples for three time steps. -/
example (L : Lapack (Fin 2)) (y x u : Pulse) : dynGenNoise (qubitMC L (.int 1) 4) y x u = .error .indexError :=
  (c36_too_many_samples_partial (qubitMC L (.int 1) 4) rfl y x u (by simp [qubitMC])
    (Or.inl (by rw [qubitMC_gens]; show 3 < 4; norm_num)) false []).1

/-- `c33_zero_noise` applies. -/
example (L : Lapack (Fin 2)) : ∃ ps, (readProps (qubitPar L .none false).cfg
    (fresh (qubitPar L .none false).cfg [1, 2, 3] [[1, 2], [3, 4], [5, 6]])).1 = .ok ps ∧
    propsNoise { qubitMC L (.int 2) 3 with samples := ⟨2, 3, 3, fun _ _ _ => 0⟩ } [1, 2, 3] [[1, 2], [3, 4], [5, 6]]
      [[1, 2], [3, 4], [5, 6]] [[1, 2], [3, 4], [5, 6]] = .ok [ps, ps, ps] := by
  obtain ⟨ps, f, r, h1, -, -, h2, -⟩ := c33_zero_noise (qubitPar L .none false) [1, 2, 3] (qubitPar_valid L _ _)
    [[1, 2], [3, 4], [5, 6]] _ [[1, 2], [3, 4], [5, 6]] (qubitPar_amps L _ _ _ rfl (by simp)) (by simp [qubitPar])
    { qubitMC L (.int 2) 3 with samples := ⟨2, 3, 3, fun _ _ _ => 0⟩ } rfl
    (Or.inr ⟨Or.inr ⟨2, by norm_num, rfl⟩, rfl⟩) rfl (le_refl _) (le_refl _) (fun _ _ _ => rfl)
  exact ⟨ps, h1, h2⟩

/-- A quadratic amplitude function. -/
noncomputable def quadAmps (x : Pulse) : Raw :=
  ⟨2, 2, x.map fun row => [row.getD 0 0 ^ 2, row.getD 0 0 * row.getD 1 0], by simp⟩

noncomputable def quadPar (L : Lapack (Fin 2)) : SPar (Fin 2) (Fin 2) :=
  { qubitPar L .none false with amp := fun x => .ok (quadAmps x) }

noncomputable def quadSamples : Arr3 := ⟨2, 3, 3, fun j k t => 100 * j + 10 * k + t⟩

/-- `c37_control_noise` applies to a quadratic amplitude function. -/
example (L : Lapack (Fin 2)) (procs : Procs) (y : Pulse) :
    dynGenNoise (mcControlNoise (quadPar L) procs 3 quadSamples) y [[1, 2], [3, 4], [5, 6]]
        (quadAmps [[1, 2], [3, 4], [5, 6]]).rows =
      .ok ((List.range 3).map fun k => schroedGens (quadPar L).drift (quadPar L).ctrl
        (quadAmps (noisyPars [[1, 2], [3, 4], [5, 6]] quadSamples k)).rows) := by
  have hc : (quadPar L).ctrl.length = 2 := by simp [quadPar, qubitPar]
  have hd : (quadPar L).drift.length = 3 := by simp [quadPar, qubitPar]
  refine c37_control_noise (quadPar L) procs 3 quadSamples y [[1, 2], [3, 4], [5, 6]]
    (quadAmps [[1, 2], [3, 4], [5, 6]]).rows ?_ ?_ ?_ ?_ ?_ ?_
    (fun k => quadAmps (noisyPars [[1, 2], [3, 4], [5, 6]] quadSamples k)) ?_ ?_
  · simp [quadSamples]
  · simp [quadSamples]
  · simp [quadAmps]
  · simp [quadAmps, hc]
  · simp [hd]
  · simp [quadSamples]
  · intro k _; rfl
  · intro k _
    rw [hc]
    exact ⟨rfl, by simp [noisyPars, quadAmps], rfl⟩

end
end Verif.Solver
