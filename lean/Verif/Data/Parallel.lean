import Verif.Data.ContainerThms
import Mathlib.Data.List.Range
import Mathlib.Data.List.Perm.Basic

/-!
# C69: parallel optimisation (parallel.py:59-110)

`optimizer.run_optimization` is an arbitrary function of the optimizer object, the state of the process it runs in (for example
the state of `np.random`), and the initial pulse; it may raise, and it may change the process and its optimizer.
A worker of the pool is a copy of the parent process.  Which worker executes which tasks, and in which order, is left to the
operating system and is arbitrary here (so that the size of the chunks does not matter).  The pool returns the results in the
order of the tasks, or raises one of the exceptions that occurred (the contract of `Pool.starmap`).

Simplifications: copies of objects are values, hence independent of each other; pickling never fails.
-/

namespace Verif.Data
open Verif

variable {ρ : Type}

section
variable {σ γ π ρ : Type}

/-- `Optimizer.run_optimization`: outcome, changed optimizer, changed process. -/
abbrev RunFn (σ γ π ρ : Type) := σ → γ → π → Except PyErr (Result ρ) × σ × γ

/-- The tasks a worker executes, in this order, each with its own copy of the optimizer; the results with their task numbers. -/
def worker (run : RunFn σ γ π ρ) (optimizers : List σ) (pulses : List π) : γ → List Nat → List (Nat × Except PyErr (Result ρ))
  | _, [] => []
  | g, k :: ks => match optimizers[k]?, pulses[k]? with
    | some o, some p => let (r, _, g') := run o g p; (k, r) :: worker run optimizers pulses g' ks
    | _, _ => worker run optimizers pulses g ks

/-- All results, worker by worker. -/
def table (run : RunFn σ γ π ρ) (optimizers : List σ) (pulses : List π) (g : γ) (schedule : List (List Nat)) :
    List (Nat × Except PyErr (Result ρ)) := schedule.flatMap (worker run optimizers pulses g)

/-- Each task is executed exactly once. -/
def Legal (n : Nat) (schedule : List (List Nat)) : Prop := schedule.flatten.Perm (List.range n)

/-- `pool.starmap(run_optimization, zip(optimizers, initial_pulses))`, parallel.py:105-106: results in the order of the tasks;
when tasks raise, the exception of the `pick`-th of them in the order of completion. -/
def starmap (run : RunFn σ γ π ρ) (optimizers : List σ) (pulses : List π) (g : γ) (schedule : List (List Nat)) (pick : Nat) :
    Except PyErr (List (Result ρ)) :=
  let t := table run optimizers pulses g schedule
  let errors := t.filterMap fun p => match p.2 with
    | .error e => some e
    | .ok _ => none
  match errors with
  | [] => .ok ((List.range (min optimizers.length pulses.length)).filterMap fun k => match t.lookup k with
    | some (.ok r) => some r
    | _ => none)
  | e :: es => .error ((e :: es).getD pick e)

/-- The loop `for result in results: data.append_optim_result(result)`, parallel.py:108-109. -/
def appendAll [DecidableEq ρ] : Container ρ × Heap ρ → List (Result ρ) → Except PyErr (Container ρ × Heap ρ)
  | ch, [] => .ok ch
  | (c, h), r :: rs => match c.append h r with
    | .error e => .error e
    | .ok ch => appendAll ch rs

/-- `run_optimization_parallel`, parallel.py:79-110: a pool with less than one process is a ValueError. -/
def runParallel [DecidableEq ρ] (run : RunFn σ γ π ρ) (optimizer : σ) (pulses : List π) (processes : Option Int) (g : γ)
    (schedule : List (List Nat)) (pick : Nat) (h : Heap ρ) : Except PyErr (Container ρ × Heap ρ) :=
  let optimizers := pulses.map fun _ => optimizer
  match processes with
  | some n => if n < 1 then .error .valueError else go optimizers
  | none => go optimizers
where
  /-- The part inside and after the `with` statement. -/
  go (optimizers : List σ) : Except PyErr (Container ρ × Heap ρ) :=
    match starmap run optimizers pulses g schedule pick with
    | .error e => .error e
    | .ok results => match Container.new h [] with
      | .error e => .error e
      | .ok ch => appendAll ch results

/-! ## Specification -/

/-- Specification: the outcome does not depend on the state of the process. -/
def Reproducible (run : RunFn σ γ π ρ) : Prop := ∀ o g g' p, (run o g p).1 = (run o g' p).1

/-- Specification: run the pulses one after the other, each with an unused copy of the optimizer, and stop at the first
exception. -/
def sequential (run : RunFn σ γ π ρ) (optimizer : σ) : γ → List π → Except PyErr (List (Result ρ))
  | _, [] => .ok []
  | g, p :: ps => match run optimizer g p with
    | (.error e, _, _) => .error e
    | (.ok r, _, g') => match sequential run optimizer g' ps with
      | .error e => .error e
      | .ok rs => .ok (r :: rs)

/-! ## Proofs -/

theorem worker_mem (run : RunFn σ γ π ρ) (hr : Reproducible run) (o : σ) (g0 : γ) (pulses : List π) :
    ∀ (ks : List Nat) (g : γ), worker run (pulses.map fun _ => o) pulses g ks =
      ks.filterMap fun k => pulses[k]?.map fun p => (k, (run o g0 p).1)
  | [], _ => rfl
  | k :: ks, g => by
    unfold worker
    have ho : (pulses.map fun _ => o)[k]? = pulses[k]?.map fun _ => o := List.getElem?_map
    rw [ho]
    cases hp : pulses[k]? with
    | none =>
      simp only [Option.map_none, List.filterMap_cons, hp]
      exact worker_mem run hr o g0 pulses ks g
    | some p =>
      simp only [Option.map_some, List.filterMap_cons, hp]
      rw [worker_mem run hr o g0 pulses ks, hr o g g0 p]

theorem table_eq (run : RunFn σ γ π ρ) (hr : Reproducible run) (o : σ) (g : γ) (pulses : List π) (schedule : List (List Nat)) :
    table run (pulses.map fun _ => o) pulses g schedule =
      schedule.flatten.filterMap fun k => pulses[k]?.map fun p => (k, (run o g p).1) := by
  unfold table
  induction schedule with
  | nil => rfl
  | cons ks l ih => rw [List.flatMap_cons, ih, List.flatten_cons, List.filterMap_append, worker_mem run hr o g pulses ks g]

theorem lookup_filterMap (pulses : List π) (f : π → Except PyErr (Result ρ)) (k : Nat) (p : π) (hp : pulses[k]? = some p) :
    ∀ l : List Nat, k ∈ l → (l.filterMap fun k => pulses[k]?.map fun p => (k, f p)).lookup k = some (f p)
  | j :: l, hk => by
    by_cases hj : k = j
    · subst hj
      simp [hp, List.lookup]
    · have hk' : k ∈ l := (List.mem_cons.1 hk).resolve_left hj
      have ih := lookup_filterMap pulses f k p hp l hk'
      cases hq : pulses[j]? with
      | none => simpa [hq] using ih
      | some q =>
        have : (k == j) = false := by simpa using hj
        simpa [hq, List.lookup, this] using ih

theorem sequential_eq (run : RunFn σ γ π ρ) (hr : Reproducible run) (o : σ) (g0 : γ) (f : π → Result ρ) : ∀ (ps : List π) (g : γ),
    (∀ p ∈ ps, (run o g0 p).1 = .ok (f p)) → sequential run o g ps = .ok (ps.map f)
  | [], _, _ => rfl
  | p :: ps, g, h => by
    have h1 : (run o g p).1 = .ok (f p) := by rw [hr o g g0 p]; exact h p (by simp)
    unfold sequential
    rcases hrun : run o g p with ⟨r, s, g'⟩
    rw [hrun] at h1
    simp only at h1
    subst h1
    simp [sequential_eq run hr o g0 f ps g' fun q hq => h q (by simp [hq])]

/-- **C69** (partial): when the outcome of a run does not depend on the state of the process, every schedule of the pool and every
number of processes gives the results of the runs one after the other, in the order of the pulses.
Missing: runs that use process-wide state, see `c69_violated`. -/
theorem c69_same_as_sequential_partial (run : RunFn σ γ π ρ) (hr : Reproducible run) (o : σ) (g : γ) (pulses : List π)
    (schedule : List (List Nat)) (hs : Legal pulses.length schedule) (pick : Nat) (results : List (Result ρ))
    (hseq : sequential run o g pulses = .ok results) :
    starmap run (pulses.map fun _ => o) pulses g schedule pick = .ok results := by
  -- all runs succeed
  have hall : ∀ (ps : List π) (g' : γ) (rs : List (Result ρ)), sequential run o g' ps = .ok rs →
      ∀ (k : Nat) (p : π), ps[k]? = some p → ∃ r, rs[k]? = some r ∧ (run o g p).1 = .ok r := by
    intro ps
    induction ps with
    | nil => intro g' rs _ k p hp; simp at hp
    | cons q ps ih =>
      intro g' rs hrs k p hp
      unfold sequential at hrs
      rcases hrun : run o g' q with ⟨r, s, g''⟩
      rw [hrun] at hrs
      cases r with
      | error e => simp at hrs
      | ok r =>
        simp only at hrs
        split at hrs
        · cases hrs
        · next rs' hrs' =>
          cases hrs
          cases k with
          | zero =>
            simp at hp
            subst hp
            exact ⟨r, rfl, by rw [hr o g g' q, hrun]⟩
          | succ k => exact ih g'' rs' hrs' k p (by simpa using hp)
  have hlen : ∀ (ps : List π) (g' : γ) (rs : List (Result ρ)), sequential run o g' ps = .ok rs → rs.length = ps.length := by
    intro ps
    induction ps with
    | nil => intro g' rs h; cases h; rfl
    | cons q ps ih =>
      intro g' rs hrs
      unfold sequential at hrs
      split at hrs
      · cases hrs
      · split at hrs
        · cases hrs
        · next rs' hrs' => cases hrs; simp [ih _ _ hrs']
  have hall := hall pulses g results hseq
  have hlen := hlen pulses g results hseq
  unfold starmap
  simp only
  rw [table_eq run hr]
  have herr : ((schedule.flatten.filterMap fun k => pulses[k]?.map fun p => (k, (run o g p).1)).filterMap fun p =>
      match p.2 with
      | .error e => some e
      | .ok _ => none) = [] := by
    rw [List.filterMap_eq_nil_iff]
    intro a ha
    obtain ⟨k, _, hk⟩ := List.mem_filterMap.1 ha
    obtain ⟨p, hp, rfl⟩ := Option.map_eq_some_iff.1 hk
    obtain ⟨r, _, hr'⟩ := hall k p hp
    simp [hr']
  rw [herr]
  simp only [List.length_map, min_self]
  congr 1
  have hmap : ∀ k ∈ List.range pulses.length, (match (schedule.flatten.filterMap fun k => pulses[k]?.map fun p => (k, (run o g p).1)).lookup k with
      | some (.ok r) => some r
      | _ => none) = results[k]? := by
    intro k hk
    have hk' : k < pulses.length := by simpa using hk
    have hp := List.getElem?_eq_getElem hk'
    obtain ⟨r, h1, h2⟩ := hall k _ hp
    rw [lookup_filterMap pulses (fun p => (run o g p).1) k _ hp _ (hs.symm.subset hk), h2, h1]
  rw [List.filterMap_congr hmap]
  refine List.ext_getElem? fun k => ?_
  have : (List.range pulses.length).filterMap (fun k => results[k]?) = results := by
    rw [← hlen]
    clear hall hlen hseq hmap herr
    induction results with
    | nil => rfl
    | cons r rs ih =>
      rw [List.length_cons, List.range_succ_eq_map, List.filterMap_cons]
      simp [List.filterMap_map, Function.comp_def, ih]
  rw [this]

/-- **C69** (errors): whatever the schedule, the call raises when one of the runs raises, and the exception is one of theirs. -/
theorem c69_errors_partial (run : RunFn σ γ π ρ) (hr : Reproducible run) (o : σ) (g : γ) (pulses : List π)
    (schedule : List (List Nat)) (hs : Legal pulses.length schedule) (pick : Nat) :
    (∃ e, starmap run (pulses.map fun _ => o) pulses g schedule pick = .error e) ↔ ∃ p ∈ pulses, ∃ e, (run o g p).1 = .error e := by
  unfold starmap
  simp only
  rw [table_eq run hr]
  cases herr : ((schedule.flatten.filterMap fun k => pulses[k]?.map fun p => (k, (run o g p).1)).filterMap fun p =>
      match p.2 with
      | .error e => some e
      | .ok _ => none) with
  | nil =>
    simp only [reduceCtorEq, exists_false, false_iff]
    rintro ⟨p, hp, e, he⟩
    obtain ⟨k, hk⟩ := List.getElem?_of_mem hp
    have hk' : k < pulses.length := (List.getElem?_eq_some_iff.1 hk).1
    have h1 : (k, (run o g p).1) ∈ schedule.flatten.filterMap fun k => pulses[k]?.map fun p => (k, (run o g p).1) :=
      List.mem_filterMap.2 ⟨k, hs.symm.subset (by simpa using hk'), by simp [hk]⟩
    have h2 := List.filterMap_eq_nil_iff.1 herr _ h1
    simp [he] at h2
  | cons e es =>
    refine ⟨fun _ => ?_, fun _ => ⟨_, rfl⟩⟩
    have hmem : e ∈ e :: es := by simp
    rw [← herr] at hmem
    obtain ⟨a, ha, hae⟩ := List.mem_filterMap.1 hmem
    obtain ⟨k, _, hk⟩ := List.mem_filterMap.1 ha
    obtain ⟨p, hp, rfl⟩ := Option.map_eq_some_iff.1 hk
    refine ⟨p, List.mem_of_getElem? hp, ?_⟩
    cases hrun : (run o g p).1 with
    | error e' => exact ⟨e', rfl⟩
    | ok r => simp [hrun] at hae

/-- The appends of the loop are a history in the sense of C66. -/
theorem appendAll_run [DecidableEq ρ] : ∀ (rs : List (Result ρ)) (c : Container ρ) (h : Heap ρ) (c' : Container ρ) (h' : Heap ρ),
    appendAll (c, h) rs = .ok (c', h') →
    (World.run { heap := h, containers := [c] } (rs.map fun r => .append 0 r)) = { heap := h', containers := [c'] }
  | [], c, h, c', h', he => by cases he; rfl
  | r :: rs, c, h, c', h', he => by
    unfold appendAll at he
    split at he
    · cases he
    · next ch hch =>
      obtain ⟨c1, h1⟩ := ch
      have := appendAll_run rs c1 h1 c' h' he
      simp only [World.run, List.map_cons, List.foldl_cons]
      have hs : (World.step { heap := h, containers := [c] } (.append 0 r)).1 = { heap := h1, containers := [c1] } := by
        simp [World.step, hch]
      rw [hs]
      exact this

/-- Appending succeeds when all results have the same cost indices. -/
theorem appendAll_ok [DecidableEq ρ] (names : Val ρ) : ∀ (rs : List (Result ρ)) (w : World ρ) (log : List (Result ρ)) (c : Container ρ),
    Inv w [log] → w.containers = [c] → (∀ r ∈ rs, r.indices = names) → (∀ r ∈ log, r.indices = names) →
    ∃ ch, appendAll (c, w.heap) rs = .ok ch
  | [], _, _, c, _, _, _, _ => ⟨_, rfl⟩
  | r :: rs, w, log, c, hinv, hc, hrs, hlog => by
    have hci : w.containers[0]? = some c := by rw [hc]; rfl
    have hh := hinv.holds 0 c log hci rfl
    have hi := (inv_append w [log] hinv 0 c r hci).1
    have hcl : c.len (entries w.heap r).2.2 = log.length := by
      rw [← hh.len]
      unfold Container.len entries
      cases r.optimSummary
      · refine congrArg List.length (get_append_lt _ _ _ (hinv.bound _ ?_))
        rw [hc]; simp [Container.addresses]
      · rfl
    have hok : c.len (entries w.heap r).2.2 = 0 ∨ c.indices = r.indices := by
      rw [hcl]
      cases log with
      | nil => left; rfl
      | cons x l => right; rw [← hh.indices x (by simp), hlog x (by simp), hrs r (by simp)]
    have hall : log.all (fun r' => decide (r'.indices = r.indices)) = true := by
      simp only [List.all_eq_true, decide_eq_true_eq]
      intro x hx; rw [hlog x hx, hrs r (by simp)]
    have happ := append_eq c w.heap r
    rw [if_pos hok] at happ
    unfold appendAll
    rw [happ]
    simp only [World.step, hci, happ] at hi
    simp only [List.modify_zero_cons, if_pos hall, hc] at hi
    exact appendAll_ok names rs _ (log ++ [r]) _ hi rfl (fun r' hr' => hrs r' (by simp [hr'])) (by
      intro x hx
      rcases List.mem_append.1 hx with hx | hx
      · exact hlog x hx
      · simp at hx; rw [hx, hrs r (by simp)])

/-- **C69** (partial, container): the returned container has one entry per pulse, and entry `k` is the outcome of the run of the
copy of the optimizer for pulse `k`, whatever the schedule and the number of processes.  (All results of one optimizer have the
same cost indices.)  Missing: as for `c69_same_as_sequential_partial`. -/
theorem c69_container_partial [DecidableEq ρ] (run : RunFn σ γ π ρ) (hr : Reproducible run) (o : σ) (g : γ) (pulses : List π)
    (schedule : List (List Nat)) (hs : Legal pulses.length schedule) (pick : Nat) (processes : Option Int)
    (hp : ∀ n, processes = some n → 1 ≤ n) (names : Val ρ) (f : π → Result ρ) (hf : ∀ p ∈ pulses, (run o g p).1 = .ok (f p))
    (hn : ∀ p ∈ pulses, (f p).indices = names) (h : Heap ρ) :
    ∃ c h', runParallel run o pulses processes g schedule pick h = .ok (c, h') ∧ c.len h' = pulses.length ∧
      get h' c.finalCosts = pulses.map (fun p => (f p).finalCost) ∧
      get h' c.finalParameters = pulses.map (fun p => (f p).finalParameters) ∧
      get h' c.initParameters = pulses.map (fun p => (f p).initParameters) ∧
      get h' c.status = pulses.map (fun p => (f p).status) ∧
      get h' c.statistics = pulses.map (fun p => (f p).optimizationStats) ∧
      (∀ (k : Nat) (p : π), pulses[k]? = some p → ∀ s, (f p).optimSummary = some s →
        (get h' c.costs)[k]? = some s.1 ∧ (get h' c.parameters)[k]? = some s.2) := by
  have hstar := c69_same_as_sequential_partial run hr o g pulses schedule hs pick _ (sequential_eq run hr o g f pulses g hf)
  obtain ⟨c0, e0, e1⟩ := new_empty h
  have hinv0 : Inv ({ heap := h ++ [[], [], [], [], [], [], []], containers := [c0] } : World ρ) [[]] :=
    inv_create (World.start h) [] (start_inv h) c0 _ e0
  obtain ⟨⟨c, h'⟩, hc⟩ := appendAll_ok names (pulses.map f) _ [] c0 hinv0 rfl (by simpa using hn) (by simp)
  have hgo : runParallel.go run pulses g schedule pick h (pulses.map fun _ => o) = .ok (c, h') := by
    unfold runParallel.go
    rw [hstar]
    simp only [e0]
    exact hc
  have hrun : runParallel run o pulses processes g schedule pick h = .ok (c, h') := by
    unfold runParallel
    cases processes with
    | none => exact hgo
    | some n => simp only; rw [if_neg (by have := hp n rfl; omega)]; exact hgo
  have hw := appendAll_run (pulses.map f) c0 _ c h' hc
  have hinv := inv_run ((pulses.map f).map fun r => Op.append 0 r) _ [[]] hinv0
  rw [hw] at hinv
  have hlog : logs [[]] ((pulses.map f).map fun r => Op.append 0 r) = [pulses.map f] := by
    cases hps : pulses with
    | nil => rfl
    | cons p0 ps =>
      rw [← hps]
      have h0 : p0 ∈ pulses := by rw [hps]; simp
      rw [c66_nothing_refused [] _ (by simp) (f p0) (by
        intro r hr'
        simp only [List.map_map, List.mem_map, Function.comp_apply, Op.append.injEq, true_and] at hr'
        obtain ⟨p, hp', rfl⟩ := hr'
        rw [hn p hp', hn p0 h0]) (by simp)]
      simp [List.filterMap_map, Function.comp_def]
  rw [hlog] at hinv
  have hh := hinv.holds 0 c (pulses.map f) rfl rfl
  refine ⟨c, h', hrun, ?_, ?_, ?_, ?_, ?_, ?_, ?_⟩
  · rw [hh.len]; simp
  · rw [hh.finalCosts]; simp
  · rw [hh.finalParameters]; simp
  · rw [hh.initParameters]; simp
  · rw [hh.status]; simp
  · rw [hh.statistics]; simp
  · intro k p hp' s hs'
    have key : ∀ (g' : Result ρ → Option (Val ρ)) (vs : List (Val ρ)) (x : Val ρ), g' (f p) = some x →
        List.Forall₂ (fun (r : Result ρ) v => SummaryEntry h' ([c].flatMap Container.addresses) (g' r) v) (pulses.map f) vs →
        vs[k]? = some x := by
      intro g' vs x hx hf2
      obtain ⟨l1, l2⟩ := List.forall₂_iff_get.1 hf2
      have hk : k < (pulses.map f).length := by simpa using (List.getElem?_eq_some_iff.1 hp').1
      have h3 := l2 k hk (by omega)
      have h4 : (pulses.map f)[k] = f p := by
        have := List.getElem?_eq_getElem hk
        rw [List.getElem?_map, hp'] at this
        simpa using this.symm
      simp only [List.get_eq_getElem, h4, hx] at h3
      rw [List.getElem?_eq_getElem (by omega)]
      exact congrArg some h3
    exact ⟨key (fun r => r.optimSummary.map Prod.fst) _ s.1 (by simp [hs']) hh.costs,
      key (fun r => r.optimSummary.map Prod.snd) _ s.2 (by simp [hs']) hh.parameters⟩

/-- Less than one process is rejected before anything runs. -/
theorem c69_rejects [DecidableEq ρ] (run : RunFn σ γ π ρ) (o : σ) (g : γ) (pulses : List π) (schedule : List (List Nat)) (pick : Nat)
    (h : Heap ρ) (n : Int) (hn : n < 1) : runParallel run o pulses (some n) g schedule pick h = .error .valueError := by
  simp [runParallel, hn]

/-- A run that reports a random number: the state of the random generator is a counter. -/
def randomRun : RunFn Unit Nat Unit Nat := fun _ g _ =>
  (.ok ⟨.obj g, .none, .none, .none, .none, .none, .none, .none, .none, .none, none⟩, (), g + 1)

/-- **C69** fails for runs that draw from the random generator of the process: the workers inherit its state, so that with two
workers both runs get the same number; one after the other they get different ones. -/
theorem c69_violated : Legal 2 [[0], [1]] ∧
    (starmap randomRun [(), ()] [(), ()] 7 [[0], [1]] 0).map (fun l => l.map fun r => r.finalCost) = .ok [.obj 7, .obj 7] ∧
    (sequential randomRun () 7 [(), ()]).map (fun l => l.map fun r => r.finalCost) = .ok [.obj 7, .obj 8] :=
  ⟨List.Perm.refl _, rfl, rfl⟩

/-- The hypotheses of the theorems: two workers, three tasks in disorder. -/
example : Legal 3 [[2, 0], [1]] ∧ Reproducible (fun (o : Nat) (g : Nat) (p : Nat) =>
    ((.ok ⟨.obj (o + p), .none, .none, .none, .none, .none, .none, .none, .none, .none, none⟩ : Except PyErr (Result Nat)), o + 1, g + 1)) := by
  constructor
  · unfold Legal; decide
  · intro _ _ _ _; rfl

end
end Verif.Data
