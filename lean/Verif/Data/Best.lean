import Verif.Optim.Run

/-!
# C140: the best of several runs

The results of several runs of one optimizer are appended to a data container (data_container.py:172-220) and the analyser is asked for
the number of the best run (analyser.py:67-86).
-/

namespace Verif.Optim.Run
open Verif Verif.Transfer Verif.Optim

/-- The lists of the data container used here; `len(self)` (data_container.py:150-162) is the length of `costs`, to which every result adds one
entry as it does to `final_costs`. -/
structure Stored (C : Nat) where
  indices : Option (List String) := none
  finalCosts : List (Option Final) := []
  finalParameters : List (Option (Pulse ℝ C)) := []

/-- `DataContainer.append_optim_result` with `_append`, data_container.py:193-219, the lists of `Stored` only.  The first result sets the
indices, later ones have to have the same. -/
def store {C : Nat} (d : Stored C) (r : Report C) : Except PyErr (Stored C) :=
  if d.finalCosts.length = 0 then
    .ok ⟨r.indices, d.finalCosts ++ [r.finalCost], d.finalParameters ++ [r.finalParameters]⟩
  else if d.indices = r.indices then
    .ok ⟨d.indices, d.finalCosts ++ [r.finalCost], d.finalParameters ++ [r.finalParameters]⟩
  else .error .assertionError

/-- The results one after another, starting with a new container. -/
def storeAll {C : Nat} (rs : List (Report C)) : Except PyErr (Stored C) := rs.foldlM store {}

/-- The shape of a final cost: the length of an array, none for a number. -/
def Final.size : Final → Option Nat
  | .array v => some v.length
  | .number _ => none
  | .infinite => none

/-- The entry of `squared_sum`, analyser.py:85. -/
noncomputable def Final.total : Final → EReal
  | .array v => ((squares v : ℝ) : EReal)
  | .number s => ((s ^ 2 : ℝ) : EReal)
  | .infinite => ⊤

open Classical in
/-- `Analyser.n_least_square`, analyser.py:67-86, for the final costs of results: numbers become a column (lines 82-84), `np.asarray` of
entries of different shapes is a ValueError (numpy since version 1.24), as is `np.argmin` without entries; `None` cannot be squared.
`np.argmin` returns the first position of the smallest entry. -/
noncomputable def nLeast (l : List (Option Final)) : Except PyErr Nat :=
  match l.mapM id with
  | none => .error .typeError
  | some [] => .error .valueError
  | some (f :: fs) =>
    if ∀ g ∈ fs, g.size = f.size then
      .ok (((f :: fs).map Final.total).findIdx fun x => decide (∀ y ∈ (f :: fs).map Final.total, x ≤ y))
    else .error .valueError

/-! ## Specification -/

/-- `k` is the number of the first of the runs `rs` whose final pulse has, in terms of `value`, the smallest costs of all, if the costs of
a pulse are `S`. -/
def FirstBest {C : Nat} (S : Pulse ℝ C → Except PyErr (List ℝ)) (value : List ℝ → ℝ) (rs : List (Report C)) (k : Nat) : Prop :=
  ∃ r x c, rs[k]? = some r ∧ r.finalParameters = some x ∧ S x = .ok c ∧
    ∀ (j : Nat) r', rs[j]? = some r' → ∃ x' c', r'.finalParameters = some x' ∧ S x' = .ok c' ∧
      value c ≤ value c' ∧ (j < k → value c < value c')

/-! ## Lemmas -/

theorem storeAll_ok {C : Nat} (idx : Option (List String)) : ∀ (rs : List (Report C)) (d : Stored C), (∀ r ∈ rs, r.indices = idx) →
    (d.finalCosts ≠ [] → d.indices = idx) →
    ∃ d', rs.foldlM store d = .ok d' ∧ d'.finalCosts = d.finalCosts ++ rs.map Report.finalCost ∧
      d'.finalParameters = d.finalParameters ++ rs.map Report.finalParameters
  | [], d, _, _ => ⟨d, rfl, by simp, by simp⟩
  | r :: rs, d, h, hd => by
    have hr := h r (by simp)
    have hs : ∃ d1, store d r = .ok d1 ∧ d1.indices = idx ∧ d1.finalCosts = d.finalCosts ++ [r.finalCost] ∧
        d1.finalParameters = d.finalParameters ++ [r.finalParameters] := by
      unfold store
      by_cases h0 : d.finalCosts.length = 0
      · rw [if_pos h0]
        exact ⟨_, rfl, hr, rfl, rfl⟩
      · have hi := hd (fun e => h0 (by rw [e]; rfl))
        rw [if_neg h0, if_pos (hi.trans hr.symm)]
        exact ⟨_, rfl, hi, rfl, rfl⟩
    obtain ⟨d1, e1, e2, e3, e4⟩ := hs
    obtain ⟨d', f1, f2, f3⟩ := storeAll_ok idx rs d1 (fun r hr => h r (by simp [hr])) fun _ => e2
    refine ⟨d', ?_, by rw [f2, e3]; simp, by rw [f3, e4]; simp⟩
    rw [List.foldlM_cons, e1]
    exact f1

theorem mapM_some {α β : Type} (f : α → Option β) (g : α → β) : ∀ l : List α, (∀ a ∈ l, f a = some (g a)) → (l.map f).mapM id = some (l.map g)
  | [], _ => rfl
  | a :: l, h => by
    rw [List.map_cons, List.mapM_cons, h a (by simp), mapM_some f g l fun b hb => h b (by simp [hb])]
    rfl

/-- The position found by `nLeast`. -/
theorem findIdx_min (l : List EReal) (hl : l ≠ []) (P : EReal → Bool) (hP : ∀ x, P x = true ↔ ∀ y ∈ l, x ≤ y) :
    ∃ m, l[l.findIdx P]? = some m ∧ ∀ (j : Nat) x, l[j]? = some x → m ≤ x ∧ (j < l.findIdx P → m < x) := by
  obtain ⟨m, hm, hmin⟩ : ∃ m ∈ l, ∀ y ∈ l, m ≤ y := by
    have := l.toFinset.exists_min_image id (by simpa [List.toFinset_nonempty_iff] using hl)
    simpa using this
  have hlt : l.findIdx P < l.length := List.findIdx_lt_length_of_exists ⟨m, hm, (hP m).2 hmin⟩
  have hk := (hP _).1 (List.findIdx_getElem (w := hlt))
  refine ⟨l[l.findIdx P], List.getElem?_eq_getElem hlt, fun j x hj => ⟨hk x (List.mem_of_getElem? hj), fun hjk => ?_⟩⟩
  have h1 := List.not_of_lt_findIdx hjk
  obtain ⟨hjl, rfl⟩ := List.getElem?_eq_some_iff.1 hj
  refine lt_of_le_of_ne (hk _ (List.getElem_mem hjl)) fun e => ?_
  have : P l[j] = true := by
    rw [hP, ← e]
    exact hk
  rw [this] at h1
  cases h1

/-- The result if every run reports a final cost of the same shape. -/
theorem nLeast_best {C : Nat} {S : Pulse ℝ C → Except PyErr (List ℝ)} (value : List ℝ → ℝ) (fin : List ℝ → Final)
    (rs : List (Report C)) (hne : rs ≠ []) (s : Option Nat) (idx : Option (List String))
    (h : ∀ r ∈ rs, ∃ x c, r.finalParameters = some x ∧ S x = .ok c ∧ r.finalCost = some (fin c) ∧ (fin c).size = s ∧ r.indices = idx)
    (hv : ∀ c, (fin c).total = ((value c : ℝ) : EReal)) :
    ∃ d k, storeAll rs = .ok d ∧ nLeast d.finalCosts = .ok k ∧ FirstBest S value rs k := by
  classical
  obtain ⟨d, h1, h2, -⟩ := storeAll_ok idx rs {} (fun r hr => by obtain ⟨_, _, _, _, _, _, e⟩ := h r hr; exact e) (fun h => absurd rfl h)
  have hg : ∀ r ∈ rs, r.finalCost = some (r.finalCost.getD .infinite) := by
    intro r hr
    obtain ⟨_, c, _, _, e, _⟩ := h r hr
    rw [e]
    rfl
  have hm : d.finalCosts.mapM id = some (rs.map fun r => r.finalCost.getD .infinite) := by
    rw [h2]
    exact mapM_some _ _ rs hg
  obtain ⟨r₀, rs', rfl⟩ := List.exists_cons_of_ne_nil hne
  have hsz : ∀ r ∈ r₀ :: rs', (r.finalCost.getD .infinite).size = s := by
    intro r hr
    obtain ⟨_, c, _, _, e, e', _⟩ := h r hr
    rw [e]
    exact e'
  have hn : ∃ P : EReal → Bool, (∀ x, P x = true ↔ ∀ y ∈ ((r₀ :: rs').map fun r => r.finalCost.getD .infinite).map Final.total, x ≤ y) ∧
      nLeast d.finalCosts = .ok ((((r₀ :: rs').map fun r => r.finalCost.getD .infinite).map Final.total).findIdx P) := by
    refine ⟨fun x => decide (∀ y ∈ ((r₀ :: rs').map fun r => r.finalCost.getD .infinite).map Final.total, x ≤ y), fun x => by
      simp only [decide_eq_true_eq], ?_⟩
    unfold nLeast
    rw [hm]
    simp only [List.map_cons]
    rw [if_pos fun g hg => by
      obtain ⟨r, hr, rfl⟩ := List.mem_map.1 hg
      rw [hsz r (by simp [hr]), hsz r₀ (by simp)]]
  obtain ⟨P, hP, hk⟩ := hn
  obtain ⟨m, k1, k2⟩ := findIdx_min _ (by simp) P hP
  refine ⟨d, _, h1, hk, ?_⟩
  generalize hkk : (((r₀ :: rs').map fun r => r.finalCost.getD .infinite).map Final.total).findIdx P = k at k1 k2
  rw [List.map_map, List.getElem?_map] at k1
  obtain ⟨r, hr, rfl⟩ := Option.map_eq_some_iff.1 k1
  obtain ⟨x, c, e1, e2, e3, -⟩ := h r (List.mem_of_getElem? hr)
  refine ⟨r, x, c, hr, e1, e2, fun j r' hj => ?_⟩
  obtain ⟨x', c', f1, f2, f3, -⟩ := h r' (List.mem_of_getElem? hj)
  have h3 := k2 j ((r'.finalCost.getD .infinite).total) (by rw [List.map_map, List.getElem?_map, hj]; rfl)
  simp only [Function.comp, e3, f3, Option.getD_some, hv] at h3
  exact ⟨x', c', f1, f2, by exact_mod_cast h3.1, fun hjk => by exact_mod_cast h3.2 hjk⟩

theorem weighted_length (w : Option (List ℝ)) (c : List ℝ) : (weighted w c).length = c.length := by simp [weighted]

/-! ## C140 -/

/-- **C140** (partial) The runs of a `LeastSquaresOptimizer` from any initial pulses, none of them ended by the time limit: they can be
stored, and the number returned by the analyser is that of the first run whose final pulse has the smallest sum of the squares of the
weighted costs. -/
theorem c140_least_squares_partial {C : Nat} (alg : LsqArgs → Alg (List ℝ) (List (List ℝ)) LsqResult) (halg : LsqHonest alg) (o : Opt C)
    (S : Pulse ℝ C → Except PyErr (List ℝ)) (J : Pulse ℝ C → Except PyErr (Grads ℝ o.F C))
    (hS : ∀ n y, o.sim n y = S y) (hJ : ∀ n y, o.jac n y = J y) (N : Nat) (hN : ∀ y c, S y = .ok c → c.length = N)
    (rs : List (Report C)) (hne : rs ≠ [])
    (h : ∀ r ∈ rs, ∃ clock y st, (∀ n, clock n ≤ o.conditions.maxWallTime) ∧ runLsq alg o clock y = (.ok r, st)) :
    ∃ d k, storeAll rs = .ok d ∧ nLeast d.finalCosts = .ok k ∧ FirstBest S (fun c => squares (weighted o.weights c)) rs k := by
  refine nLeast_best (S := S) (fun c => squares (weighted o.weights c)) (fun c => .array (weighted o.weights c)) rs hne (some N)
    (some o.indices) (fun r hr => ?_) fun c => rfl
  obtain ⟨clock, y, st, hc, hrun⟩ := h r hr
  obtain ⟨x, c, h1, -, h2, h3, h4, -⟩ := c133_least_squares alg halg o clock y S J hS hJ hc r st hrun
  exact ⟨x, c, h1, h2, h3, by simp [Final.size, weighted_length, hN x c h2], h4⟩

/-- **C140** (partial) The runs of a `ScalarMinimizingOptimizer` from any initial pulses, none of them ended by the time limit: the number
returned by the analyser is that of the first run whose final pulse has the smallest square of the weighted sum of the costs. -/
theorem c140_scalar_partial {C : Nat} (alg : MinArgs → Alg ℝ (List ℝ) MinResult) (halg : MinHonest alg) (o : Opt C)
    (S : Pulse ℝ C → Except PyErr (List ℝ)) (J : Pulse ℝ C → Except PyErr (Grads ℝ o.F C))
    (hS : ∀ n y, o.sim n y = S y) (hJ : ∀ n y, o.jac n y = J y) (rs : List (Report C)) (hne : rs ≠ [])
    (h : ∀ r ∈ rs, ∃ clock y st, (∀ n, clock n ≤ o.conditions.maxWallTime) ∧ runScalar alg o clock y = (.ok r, st)) :
    ∃ d k, storeAll rs = .ok d ∧ nLeast d.finalCosts = .ok k ∧ FirstBest S (fun c => (weighted o.weights c).sum ^ 2) rs k := by
  refine nLeast_best (S := S) (fun c => (weighted o.weights c).sum ^ 2) (fun c => .number (weighted o.weights c).sum) rs hne none
    (some o.indices) (fun r hr => ?_) fun c => rfl
  obtain ⟨clock, y, st, hc, hrun⟩ := h r hr
  obtain ⟨x, c, h1, -, h2, h3, h4, -⟩ := c133_scalar alg halg o clock y S J hS hJ hc r st hrun
  exact ⟨x, c, h1, h2, h3, rfl, h4⟩

theorem weighted_none (c : List ℝ) : weighted none c = c := by
  apply List.ext_getElem
  · simp [weighted]
  · intro i h1 h2
    simp [weighted, weightAt, h2]

theorem timeout_indices {C : Nat} {o : Opt C} {scalar : Bool} {T : Nat} {st st' : St o.F C} {r : Report C}
    (h : timeout o scalar T st = (.ok r, st')) : r.indices = some o.indices := by
  unfold timeout at h
  split at h
  · cases h
  · cases h; rfl

theorem runLsq_late_indices {C : Nat} {alg : LsqArgs → Alg (List ℝ) (List (List ℝ)) LsqResult} {o : Opt C} {clock : Nat → ℝ}
    {y : Pulse ℝ C} {r : Report C} {st : St o.F C} (h : runLsq alg o clock y = (.ok r, st))
    (hx : (exec (arrayWrappers (o.cfg false y.length) o.useJac) clock (lsqCall alg o y) (prepared o.F C)).1 = .error .wallTime) :
    r.indices = some o.indices := by
  unfold runLsq at h
  simp only at h
  rcases hxx : exec (arrayWrappers (o.cfg false y.length) o.useJac) clock (lsqCall alg o y) (prepared o.F C) with ⟨e, st1⟩
  rw [hxx] at hx h
  simp only at hx
  subst hx
  exact timeout_indices h

/-- **C140** (partial) The runs of a `LeastSquaresOptimizer` without weights, whose algorithm begins by asking for the costs of the initial
pulse: the same holds if some of the runs are ended by the time limit after that first question. -/
theorem c140_limited_partial {C : Nat} (alg : LsqArgs → Alg (List ℝ) (List (List ℝ)) LsqResult) (halg : LsqHonest alg)
    (q : LsqArgs → List ℝ → Alg (List ℝ) (List (List ℝ)) LsqResult) (ha : ∀ args, alg args = .cost args.x0 (q args)) (o : Opt C)
    (S : Pulse ℝ C → Except PyErr (List ℝ)) (J : Pulse ℝ C → Except PyErr (Grads ℝ o.F C)) (hw : o.weights = none)
    (hS : ∀ n y, o.sim n y = S y) (hJ : ∀ n y, o.jac n y = J y) (N : Nat) (hN : ∀ y c, S y = .ok c → c.length = N)
    (rs : List (Report C)) (hne : rs ≠ [])
    (h : ∀ r ∈ rs, ∃ clock y st, runLsq alg o clock y = (.ok r, st) ∧ ((∀ n, clock n ≤ o.conditions.maxWallTime) ∨
      clock 0 ≤ o.conditions.maxWallTime ∧ (∃ c₀, S y = .ok c₀) ∧
      (exec (arrayWrappers (o.cfg false y.length) o.useJac) clock (lsqCall alg o y) (prepared o.F C)).1 = .error .wallTime)) :
    ∃ d k, storeAll rs = .ok d ∧ nLeast d.finalCosts = .ok k ∧ FirstBest S squares rs k := by
  refine nLeast_best (S := S) squares .array rs hne (some N) (some o.indices) (fun r hr => ?_) fun c => rfl
  obtain ⟨clock, y, st, hrun, hc | ⟨h0, ⟨c₀, hc₀⟩, hx⟩⟩ := h r hr
  · obtain ⟨x, c, h1, -, h2, h3, h4, -⟩ := c133_least_squares alg halg o clock y S J hS hJ hc r st hrun
    rw [hw, weighted_none] at h3
    exact ⟨x, c, h1, h2, h3, by simp [Final.size, hN x c h2], h4⟩
  · obtain ⟨x, c, h1, h2, h3, -⟩ := c133_timeout_least_squares_partial alg q ha o clock y S hS hw h0 c₀ hc₀ r st hrun hx
    exact ⟨x, c, h1, h2, h3, by simp [Final.size, hN x c h2], runLsq_late_indices hrun hx⟩

example : ∃ r r' st st' d k, runLsq halveSquares (square "trf" (some [[((0 : ℝ) : EReal)], [((3 : ℝ) : EReal)]])) (fun _ => 0) [fun _ => 2] = (.ok r, st) ∧
    runLsq halveSquares (square "trf" (some [[((0 : ℝ) : EReal)], [((3 : ℝ) : EReal)]])) (fun n => 2 * n) [fun _ => 2] = (.ok r', st') ∧
    storeAll [r, r'] = .ok d ∧ nLeast d.finalCosts = .ok k ∧ FirstBest (fun y => .ok [(y.headD 0 0) ^ 2]) squares [r, r'] k := by
  obtain ⟨r, st, h⟩ := halveSquares_run (fun _ => 0) (by simp)
  obtain ⟨r', st', h'⟩ := halveSquares_late_run
  have hl := halveSquares_late "trf" (some [[((0 : ℝ) : EReal)], [((3 : ℝ) : EReal)]])
    ⟨[2], false, [((0 : ℝ) : EReal)], [((3 : ℝ) : EReal)], "trf", 0, 0, 0, 5⟩ rfl false
  rw [← square_call halveSquares] at hl
  obtain ⟨d, k, h1, h2, h3⟩ := c140_limited_partial halveSquares halveSquares_contracts.1 _ (fun _ => rfl)
    (square "trf" (some [[((0 : ℝ) : EReal)], [((3 : ℝ) : EReal)]])) (fun y => .ok [(y.headD 0 0) ^ 2]) _ rfl (fun _ _ => rfl) (fun _ _ => rfl) 1
    (by rintro y c h; cases h; rfl) [r, r'] (by simp) (by
      intro a ha
      simp only [List.mem_cons, List.not_mem_nil, or_false] at ha
      rcases ha with rfl | rfl
      · exact ⟨_, _, st, h, .inl (by simp [square])⟩
      · exact ⟨_, _, st', h', .inr ⟨by simp [square], ⟨_, rfl⟩, hl⟩⟩)
  exact ⟨r, r', st, st', d, k, h, h', h1, h2, h3⟩

example : ∃ r st d k, runLsq halveSquares (square "trf" (some [[((0 : ℝ) : EReal)], [((3 : ℝ) : EReal)]])) (fun _ => 0) [fun _ => 2] = (.ok r, st) ∧
    storeAll [r, r] = .ok d ∧ nLeast d.finalCosts = .ok k ∧
      FirstBest (fun y => .ok [(y.headD 0 0) ^ 2]) (fun c => squares (weighted (square "trf" (some [[((0 : ℝ) : EReal)], [((3 : ℝ) : EReal)]])).weights c)) [r, r] k := by
  obtain ⟨r, st, h⟩ := halveSquares_run (fun _ => 0) (by simp)
  obtain ⟨d, k, h1, h2, h3⟩ := c140_least_squares_partial halveSquares halveSquares_contracts.1 (square "trf" (some [[((0 : ℝ) : EReal)], [((3 : ℝ) : EReal)]]))
    (fun y => .ok [(y.headD 0 0) ^ 2]) _ (fun _ _ => rfl) (fun _ _ => rfl) 1 (by rintro y c h; cases h; rfl) [r, r] (by simp) (by
      intro a ha
      simp only [List.mem_cons, List.not_mem_nil, or_false, or_self] at ha
      subst ha
      exact ⟨_, _, st, by simp [square], h⟩)
  exact ⟨r, st, d, k, h, h1, h2, h3⟩

example : ∃ r st d k, runScalar halve (square "L-BFGS-B" none) (fun _ => 0) [fun _ => 2] = (.ok r, st) ∧
    storeAll [r, r] = .ok d ∧ nLeast d.finalCosts = .ok k ∧
      FirstBest (fun y => .ok [(y.headD 0 0) ^ 2]) (fun c => (weighted (square "L-BFGS-B" none).weights c).sum ^ 2) [r, r] k := by
  obtain ⟨r, st, h⟩ := halve_run "L-BFGS-B" none (fun _ => 0) (by simp)
  obtain ⟨d, k, h1, h2, h3⟩ := c140_scalar_partial halve halve_contracts.1 (square "L-BFGS-B" none) (fun y => .ok [(y.headD 0 0) ^ 2]) _
    (fun _ _ => rfl) (fun _ _ => rfl) [r, r] (by simp) (by
      intro a ha
      simp only [List.mem_cons, List.not_mem_nil, or_false, or_self] at ha
      subst ha
      exact ⟨_, _, st, by simp [square], h⟩)
  exact ⟨r, st, d, k, h, h1, h2, h3⟩

/-- **C140** (violated) One optimizer, two runs of it from the same initial pulse, the second ended by the time limit: both return a result,
both results can be stored, and the number of the best run is not found, since the final cost of the first is a number
(optimize.py:592) and that of the second an array (optimize.py:349). -/
theorem c140_violated : ∃ (alg : MinArgs → Alg ℝ (List ℝ) MinResult) (o : Opt 1) (y : Pulse ℝ 1) (clock clock' : Nat → ℝ) (r r' : Report 1)
    (st st' : St o.F 1) (d : Stored 1), MinHonest alg ∧ MinDescends alg ∧ runScalar alg o clock y = (.ok r, st) ∧
      runScalar alg o clock' y = (.ok r', st') ∧ storeAll [r, r'] = .ok d ∧ nLeast d.finalCosts = .error .valueError := by
  obtain ⟨r, st, h⟩ := halve_run "L-BFGS-B" none (fun _ => 0) (by simp)
  obtain ⟨r', st', h'⟩ := halve_late_run "L-BFGS-B" none
  obtain ⟨x, c, -, -, -, h1, h2, -⟩ := c133_scalar halve halve_contracts.1 (square "L-BFGS-B" none) _ _
    (fun y => .ok [(y.headD 0 0) ^ 2]) _ (fun _ _ => rfl) (fun _ _ => rfl) (by simp [square]) r st h
  have hl := halve_late "L-BFGS-B" none (minArgs (square "L-BFGS-B" none) [fun _ => 2]) (by rw [minArgs_x0, square_flatten])
    (minArgs (square "L-BFGS-B" none) [fun _ => 2]).jac
  obtain ⟨x', c', -, -, h1', -⟩ := c133_timeout_scalar_partial halve _ (fun _ => rfl) (square "L-BFGS-B" none) (fun n => 2 * n) _
    (fun y => .ok [(y.headD 0 0) ^ 2]) (fun _ _ => rfl) rfl (by simp [square]) _ rfl r' st' h' hl
  have h2' : r'.indices = some (square "L-BFGS-B" none).indices := by
    unfold runScalar at h'
    simp only at h'
    rcases hxx : exec (scalarWrappers ((square "L-BFGS-B" none).cfg true 1) (minArgs (square "L-BFGS-B" none) [fun _ => 2]).jac) (fun n => 2 * n)
      (halve (minArgs (square "L-BFGS-B" none) [fun _ => 2])) (prepared 1 1) with ⟨e, st1⟩
    rw [hxx] at hl
    simp only at hl
    subst hl
    erw [hxx] at h'
    exact timeout_indices h'
  obtain ⟨d, e1, e2, -⟩ := storeAll_ok (some (square "L-BFGS-B" none).indices) [r, r'] {} (by simp [h2, h2']) (fun h => absurd rfl h)
  refine ⟨halve, square "L-BFGS-B" none, [fun _ => 2], _, _, r, r', st, st', d, halve_contracts.1, halve_contracts.2, h, h', e1, ?_⟩
  rw [e2]
  simp [nLeast, h1, h1', Final.size]

end Verif.Optim.Run
