import Verif.Solver.LindbladCacheThms

/-!
# C99 and C41: exceptions of a `LindbladSolver`

Continues `c99_violated`: what the other properties of a `LindbladSolver` return after the first read raised TypeError.  Incomplete
derivative functions raise IndexError.
-/

namespace Verif.Solver
open Verif Verif.Operator Matrix

variable {n : Type} [Fintype n] [DecidableEq n]

/-- The propagators of the Schroedinger equation left behind by a failed evaluation. -/
noncomputable def leftover (c : LCfg n) (times : List ℝ) (u : Pulse) : List (Matrix n n ℂ) :=
  (List.range times.length).map fun t =>
    expProp c.small c.method c.skew ((schroedGens c.drift c.ctrl u).getD t 0) (times.getD t 0)

theorem lEnsureProp_small {c : LCfg n} (hm : c.method ≠ .other) (s : LSt n) (u : Pulse)
    (ha : s.core.amps = some u) (hG : s.smallGen = some (schroedGens c.drift c.ctrl u)) (h1 : s.smallProp = none)
    (h2 : s.core.prop = none) (hl : s.core.times.length ≤ (schroedGens c.drift c.ctrl u).length) :
    lEnsureProp c false s = (none, { s with smallProp := some ((leftover c s.core.times u).map some) }) := by
  unfold lEnsureProp
  simp only [h1, h2, lCompute, ha, hG, lPropagateSmall, Bool.false_eq_true, if_false]
  rw [fill_map_ok _ _ _ (fun t => some (expProp c.small c.method c.skew ((schroedGens c.drift c.ctrl u).getD t 0) (s.core.times.getD t 0)))]
  · simp [leftover]
  · intro t ht
    have ht' := List.mem_range.mp ht
    have hG : t < (schroedGens c.drift c.ctrl u).length := by omega
    simp only [stepPlain, List.getElem?_eq_getElem hG, List.getElem?_eq_getElem ht', exp_expProp _ hm]
    simp [List.getD_eq_getElem?_getD, List.getElem?_eq_getElem hG, List.getElem?_eq_getElem ht', Except.map]

/-- **C99 is violated** after an exception, continued: after the failed first read the reversed propagators are returned without an
exception and are products of the `d × d` propagators of the Schroedinger equation, while the forward propagators and the derivatives
(with and without the approximation 'grape') raise ValueError because of the shapes. -/
theorem c99_violated_reads (c : LCfg n) (hd : c.diss = ⟨none, none, none, none, none, none⟩) (hcd : c.calcDeriv = false)
    (hm : c.method ≠ .other) (τ : List ℝ) (hl : c.drift.length = (c.xTimes τ).length) (hne : c.xTimes τ ≠ []) (hc : c.ctrl ≠ [])
    (y x u : Pulse) (ha : Accepts c τ y x u) :
    (∃ r, (lReadRev c (lReadProps c (lFresh c τ y)).2).1 = .ok (.inl r) ∧ IsReversed (leftover c (c.xTimes τ) u) r) ∧
    (lReadFwd c (lReadProps c (lFresh c τ y)).2).1 = .error .valueError ∧
    (c.approx ≠ .other → (lReadDeriv c (lReadProps c (lFresh c τ y)).2).1 = .error .valueError) := by
  obtain ⟨hS, hI, ht⟩ := lFresh_inv ha ([] : List (Sup n)) []
  have hprop : (lFresh c τ y).core.prop = none ∧ (lFresh c τ y).core.dynGen = none ∧ (lFresh c τ y).dissSup = none ∧
      (lFresh c τ y).core.rev = none ∧ (lFresh c τ y).core.fwd = none ∧ (lFresh c τ y).core.deriv = none ∧
      (lFresh c τ y).dissDeriv = none ∧ (lFresh c τ y).smallRev = none := by
    unfold lFresh lSetPars
    rw [if_neg (by simp [lConstruct, construct, setTimes, reset])]
    unfold setPars
    rw [if_neg (by simp [lConstruct, construct, setTimes, reset])]
    refine ⟨?_, ?_, by simp [lReset, lConstruct], ?_, ?_, ?_, by simp [lReset, lConstruct], by simp [lReset, lConstruct]⟩ <;>
    · simp only
      split
      · rfl
      · split
        · rfl
        · split <;> rfl
  obtain ⟨hp1, hp2, hp3, hp4, hp5, hp6, hp7, hp8⟩ := hprop
  have hi : (lFresh c τ y).initial = none := by rw [hS.init hp3, hd]
  have hread : lReadProps c (lFresh c τ y) = (.error .typeError, { lFresh c τ y with
      smallGen := some (schroedGens c.drift c.ctrl u) }) := by
    unfold lReadProps lEnsureProp
    simp only [hS.prop, hp1, lCompute, hS.amps, hS.gen, hp2, lGens, lDiss, hp3, hi]
    simp only [calcDiss, constDiss, hd, keptDiss]
  rw [hread]
  have hens := lEnsureProp_small hm { lFresh c τ y with smallGen := some (schroedGens c.drift c.ctrl u) } u hS.amps rfl hS.prop hp1
    (by rw [schroedGens_length, hl]; simp only [ht]; exact le_refl _)
  have hlo : leftover c (lFresh c τ y).core.times u = leftover c (c.xTimes τ) u := by rw [ht]
  obtain ⟨P, ps, hps⟩ : ∃ P ps, leftover c (c.xTimes τ) u = P :: ps := by
    cases h : leftover c (c.xTimes τ) u with
    | nil =>
      have := congrArg List.length h
      simp only [leftover, List.length_map, List.length_range, List.length_nil] at this
      exact absurd (List.length_eq_zero_iff.mp this) hne
    | cons P ps => exact ⟨P, ps, rfl⟩
  simp only [hlo, hps] at hens
  obtain ⟨τ₀, τs, hτ⟩ : ∃ a l, c.xTimes τ = a :: l := List.exists_cons_of_ne_nil hne
  obtain ⟨C, Cs, hC⟩ : ∃ a l, c.ctrl = a :: l := List.exists_cons_of_ne_nil hc
  have h0 : ¬ c.ctrl.length = 0 := by rw [hC]; simp
  have e1 : ({ lFresh c τ y with smallGen := some (schroedGens c.drift c.ctrl u) } : LSt n).smallRev = none := hp8
  have e2 : ({ lFresh c τ y with smallGen := some (schroedGens c.drift c.ctrl u) } : LSt n).core.rev = none := hp4
  have e3 : ({ lFresh c τ y with smallGen := some (schroedGens c.drift c.ctrl u) } : LSt n).core.fwd = none := hp5
  have e4 : ({ lFresh c τ y with smallGen := some (schroedGens c.drift c.ctrl u) } : LSt n).core.deriv = none := hp6
  have e5 : ({ lFresh c τ y with smallGen := some (schroedGens c.drift c.ctrl u) } : LSt n).dissDeriv = none := hp7
  have e6 : ({ lFresh c τ y with smallGen := some (schroedGens c.drift c.ctrl u) } : LSt n).core.amps = some u := hS.amps
  have e7 : ({ lFresh c τ y with smallGen := some (schroedGens c.drift c.ctrl u) } : LSt n).core.times = c.xTimes τ := ht
  have e8 : ({ lFresh c τ y with smallGen := some (schroedGens c.drift c.ctrl u) } : LSt n).smallGen =
    some (schroedGens c.drift c.ctrl u) := rfl
  revert hens e1 e2 e3 e4 e5 e6 e7 e8
  generalize ({ lFresh c τ y with smallGen := some (schroedGens c.drift c.ctrl u) } : LSt n) = s
  intro hens e1 e2 e3 e4 e5 e6 e7 e8
  refine ⟨?_, ?_, fun hap => ?_⟩
  · obtain ⟨r, h1, h2⟩ := revOf_isReversed (leftover c (c.xTimes τ) u) (by rw [hps]; simp)
    refine ⟨r, ?_, h2⟩
    unfold lReadRev
    simp only [e1, e2, hcd, hens, List.map_cons]
    rw [hps] at h1
    simp only [List.map_cons, revOf] at h1
    have hnone : (revLoop ((some P :: ps.map some).reverse) 1).2 = none := by
      have : (some P :: ps.map some).reverse = ((P :: ps).reverse).map some := by simp
      rw [this]
      exact (revLoop_some _ _).1
    rw [hnone] at h1 ⊢
    simp only [orErr, Except.ok.injEq] at h1
    rw [h1]
  · unfold lReadFwd
    simp only [e3, hcd, hens, List.map_cons]
  · unfold lReadDeriv
    simp only [e4]
    unfold lComputeDeriv
    cases h : c.approx with
    | other => exact absurd h hap
    | none =>
      simp only [lCompute, e6, e8, lPropagateSmall, lDirs, h0, if_false, e5, calcDissDeriv, hd, dirsFrom, if_true]
      obtain ⟨G, Gs, hG⟩ : ∃ G Gs, schroedGens c.drift c.ctrl u = G :: Gs := by
        refine List.exists_cons_of_ne_nil fun h0 => ?_
        have := congrArg List.length h0
        rw [schroedGens_length, hl, hτ] at this
        simp at this
      simp only [e7, hτ, hG, List.length_cons, List.replicate_succ]
      simp only [hC, List.map_cons]
    | grape =>
      simp only [hens, lDirs, h0, if_false, hp7, calcDissDeriv, hd, dirsFrom]
      simp only [ht, hτ, List.length_cons, List.replicate_succ]
      simp only [hC, List.map_cons]

/-! ## Incomplete derivatives -/

theorem fill_error {α : Type} (d : α) (e : PyErr) (f : Nat → Except PyErr α) (l : List Nat)
    (h : ∀ t ∈ l, (∃ a, f t = .ok a) ∨ f t = .error e) (he : ∃ t ∈ l, f t = .error e) : (fill d (l.map f)).2 = some e := by
  induction l with
  | nil => obtain ⟨t, ht, -⟩ := he; cases ht
  | cons t l ih =>
    rcases h t (by simp) with ⟨a, ha⟩ | ha
    · simp only [List.map_cons, ha, fill]
      refine ih (fun t ht => h t (by simp [ht])) ?_
      obtain ⟨t', ht', he⟩ := he
      rcases List.mem_cons.mp ht' with rfl | h'
      · rw [ha] at he; cases he
      · exact ⟨t', h', he⟩
    · simp only [List.map_cons, ha, fill]

/-- **C41**, incomplete derivatives: if the derivative function of the super operators returns too few time steps, or too few controls at
one of them, then reading `frechet_deriv_propagators` of a new solver raises IndexError, with and without the approximation 'grape';
otherwise it returns. -/
theorem c41_incomplete (c : LCfg n) (F : Pulse → Pulse → List (Sup n)) (F' : Pulse → Pulse → List (List (Sup n)))
    (h1 : c.diss.supOp = some F) (h2 : c.diss.supOpDeriv = some F') (hm : c.method ≠ .other)
    (hcd : c.approx = .none ∧ c.calcDeriv = true ∨ c.approx = .grape ∧ c.calcDeriv = false)
    (τ : List ℝ) (y x u : Pulse) (ha : Accepts c τ y x u) (hne : c.xTimes τ ≠ []) (hd : c.drift.length = (c.xTimes τ).length)
    (h0 : c.ctrl ≠ []) (hF : (F u x).length = (c.xTimes τ).length) :
    ((∃ t < (c.xTimes τ).length, ∀ row, (F' u x)[t]? = some row → row.length < c.ctrl.length) →
      (lReadDeriv c (lFresh c τ y)).1 = .error .indexError) ∧
    ((∀ t < (c.xTimes τ).length, ∃ row, (F' u x)[t]? = some row ∧ c.ctrl.length ≤ row.length) →
      ∃ d, (lReadDeriv c (lFresh c τ y)).1 = .ok d) := by
  have hpd : c.diss.Paired := by intro h; simp [Diss.hasFuncs, h1] at h
  have hgl : (schroedGens c.drift c.ctrl u).length = (c.xTimes τ).length := by rw [schroedGens_length, hd]
  have hgne : schroedGens c.drift c.ctrl u ≠ [] := by
    intro h
    rw [h] at hgl
    exact hne (List.length_eq_zero_iff.mp hgl.symm)
  set g := List.zipWith supGen (schroedGens c.drift c.ctrl u) (F u x) with hg
  set D := (F' u x).map fun row => List.zipWith (fun D C => D + C) row (c.ctrl.map ctrlSup) with hD
  have hgl' : g.length = (c.xTimes τ).length := by simp [hg, hgl, hF]
  have hc : Computable c (c.xTimes τ) u x g D := by
    refine ⟨?_, ?_⟩
    · unfold LPar.gens calcDiss lindGens
      simp [h1, hgne, bind, Except.bind, hgl, hF, hg]
    · unfold lindDirs calcDissDeriv
      simp [h2, bind, Except.bind, pure, Except.pure, hD, h0]
  have hst : Stable (c.at g D) := by
    rcases hcd with h | h
    · exact Or.inl h
    · refine Or.inr (Or.inr ⟨?_, h.2⟩)
      show c.approx ≠ .none
      rw [h.1]; simp
  obtain ⟨f1, f2, f3⟩ := lFresh_inv ha g D
  have hread : (lReadDeriv c (lFresh c τ y)).1 = specDeriv (c.at g D) (c.xTimes τ) u := by
    rw [(lReadDeriv_sim hpd f1 (by rw [f3]; exact hc) f2).1, (readDeriv_ok hst f2).1, f3]
    rfl
  rw [hread]
  have hrow : ∀ t : Nat, D[t]? = ((F' u x)[t]?).map fun row => List.zipWith (fun D C => D + C) row (c.ctrl.map ctrlSup) := by
    intro t; rw [hD, List.getElem?_map]
  have hP := cellsP_ok (c.at g D) hm (c.xTimes τ) u (le_of_eq hgl'.symm)
  have hstep : ∀ t < (c.xTimes τ).length,
      ((∀ row, (F' u x)[t]? = some row → row.length < c.ctrl.length) →
        stepDeriv (c.at g D) g D (c.xTimes τ) t = .error .indexError ∧
        grapeRow c.ctrl.length D (c.xTimes τ) (cellsP (c.at g D) (c.xTimes τ) u).1 t = .error .indexError) ∧
      ((∃ row, (F' u x)[t]? = some row ∧ c.ctrl.length ≤ row.length) →
        (∃ a, stepDeriv (c.at g D) g D (c.xTimes τ) t = .ok a) ∧
        ∃ a, grapeRow c.ctrl.length D (c.xTimes τ) (cellsP (c.at g D) (c.xTimes τ) u).1 t = .ok a) := by
    intro t ht
    have ht' : t < g.length := hgl' ▸ ht
    rw [hP]
    unfold stepDeriv grapeRow
    simp only [hrow, List.getElem?_eq_getElem ht, List.getElem?_eq_getElem ht', List.getElem?_map, List.getElem?_range ht, Option.map_some]
    cases hr : (F' u x)[t]? with
    | none => simp
    | some row =>
      simp only [Option.map_some, stepControls_ok (c.at g D) hm, bind, Except.bind, pure, Except.pure, List.length_zipWith,
        List.length_map]
      have hn : (c.at g D).nCtrl = c.ctrl.length := rfl
      refine ⟨fun h => ?_, fun ⟨row', h, h'⟩ => ?_⟩
      · have := h row rfl
        rw [hn, if_pos (by omega), if_pos (by omega)]
        exact ⟨rfl, rfl⟩
      · cases h
        have k : ¬ min row.length c.ctrl.length < c.ctrl.length := by omega
        simp only [hn, k, if_false]
        exact ⟨⟨_, rfl⟩, ⟨_, rfl⟩⟩
  have hcase : ∀ t < (c.xTimes τ).length, (∀ row, (F' u x)[t]? = some row → row.length < c.ctrl.length) ∨
      ∃ row, (F' u x)[t]? = some row ∧ c.ctrl.length ≤ row.length := by
    intro t _
    by_cases h : ∃ row, (F' u x)[t]? = some row ∧ c.ctrl.length ≤ row.length
    · exact Or.inr h
    · push Not at h
      exact Or.inl h
  constructor
  · rintro ⟨t, ht, hs⟩
    rcases hcd with h | h
    · have := fill_error (none, []) .indexError (stepDeriv (c.at g D) g D (c.xTimes τ)) (List.range (c.xTimes τ).length)
        (fun t ht => by
          have ht := List.mem_range.mp ht
          rcases hcase t ht with hs | hs
          · exact Or.inr ((hstep t ht).1 hs).1
          · exact Or.inl ((hstep t ht).2 hs).1) ⟨t, List.mem_range.mpr ht, ((hstep t ht).1 hs).1⟩
      unfold specDeriv
      rw [show (c.at g D).approx = .none from h.1]
      simp only
      rw [show (cellsD (c.at g D) (c.xTimes τ) u).2 = some .indexError from this]
      rfl
    · have := fill_error (List.replicate c.ctrl.length none) .indexError
        (grapeRow c.ctrl.length D (c.xTimes τ) (cellsP (c.at g D) (c.xTimes τ) u).1) (List.range (c.xTimes τ).length)
        (fun t ht => by
          have ht := List.mem_range.mp ht
          rcases hcase t ht with hs | hs
          · exact Or.inr ((hstep t ht).1 hs).2
          · exact Or.inl ((hstep t ht).2 hs).2) ⟨t, List.mem_range.mpr ht, ((hstep t ht).1 hs).2⟩
      unfold specDeriv
      rw [show (c.at g D).approx = .grape from h.1]
      simp only
      rw [show (cellsP (c.at g D) (c.xTimes τ) u).2 = none by rw [hP],
        show (grapeCells (c.at g D) (c.xTimes τ) u).2 = some .indexError from this]
      rfl
  · intro hs
    rcases hcd with h | h
    · have k : ∀ t ∈ List.range (c.xTimes τ).length, ∃ a, stepDeriv (c.at g D) g D (c.xTimes τ) t = .ok a := fun t ht =>
        ((hstep t (List.mem_range.mp ht)).2 (hs t (List.mem_range.mp ht))).1
      choose! a ha using k
      have := fill_map_ok (none, []) _ _ a ha
      unfold specDeriv
      rw [show (c.at g D).approx = .none from h.1]
      simp only
      rw [show cellsD (c.at g D) (c.xTimes τ) u = _ from this]
      exact ⟨_, rfl⟩
    · have k : ∀ t ∈ List.range (c.xTimes τ).length, ∃ a,
          grapeRow c.ctrl.length D (c.xTimes τ) (cellsP (c.at g D) (c.xTimes τ) u).1 t = .ok a := fun t ht =>
        ((hstep t (List.mem_range.mp ht)).2 (hs t (List.mem_range.mp ht))).2
      choose! a ha using k
      have := fill_map_ok (List.replicate c.ctrl.length none) _ _ a ha
      unfold specDeriv
      rw [show (c.at g D).approx = .grape from h.1]
      simp only
      rw [show (cellsP (c.at g D) (c.xTimes τ) u).2 = none by rw [hP], show grapeCells (c.at g D) (c.xTimes τ) u = _ from this]
      exact ⟨_, rfl⟩

/-- `c41_incomplete` applies: the derivative with respect to the second control is missing in the second step. -/
example (L : Lapack (Fin 2 × Fin 2)) (S : Lapack (Fin 2)) (G D : Sup (Fin 2)) : ∃ c : LCfg (Fin 2), c.L = L ∧ c.small = S ∧
    c.approx = .grape ∧ (lReadDeriv c (lFresh c [1, 2, 3] [[1, 2], [3, 4], [5, 6]])).1 = .error .indexError := by
  have ha : Accepts { decayCfg L S false none none with
      diss := ⟨none, none, none, none, some fun _ _ => [G, G, G], some fun _ _ => [[D, D], [D], [D, D]]⟩, approx := .grape } [1, 2, 3]
      [[1, 2], [3, 4], [5, 6]] [[1, 2], [3, 4], [5, 6]] [[1, 2], [3, 4], [5, 6]] :=
    decay_accepts (L := L) (S := S) (cd := false) (pre := none) (pre' := none) [1, 2, 3] [[1, 2], [3, 4], [5, 6]] (by simp) rfl (by simp)
  refine ⟨_, rfl, rfl, rfl, (c41_incomplete _ _ _ rfl rfl (by simp [decayCfg, decayPar]) (Or.inr ⟨rfl, rfl⟩) _ _ _ _ ha
    (by simp [decayCfg]) rfl (by simp [decayCfg, decayPar]) rfl).1 ⟨1, by simp [decayCfg], fun row h => ?_⟩⟩
  simp at h
  subst h
  simp [decayCfg, decayPar]

/-- `c99_violated_reads` applies: the qubit without dissipation. -/
example (L : Lapack (Fin 2 × Fin 2)) (S : Lapack (Fin 2)) :
    ∃ (c : LCfg (Fin 2)) (r : List (Matrix (Fin 2) (Fin 2) ℂ)), c.L = L ∧ c.small = S ∧
      (lReadRev c (lReadProps c (lFresh c [1, 2, 3] [[1, 2], [3, 4], [5, 6]])).2).1 = .ok (.inl r) ∧ r.length = 4 := by
  have ha : Accepts { decayCfg L S false none none with diss := ⟨none, none, none, none, none, none⟩ } [1, 2, 3]
      [[1, 2], [3, 4], [5, 6]] [[1, 2], [3, 4], [5, 6]] [[1, 2], [3, 4], [5, 6]] :=
    decay_accepts (L := L) (S := S) (cd := false) (pre := none) (pre' := none) [1, 2, 3] [[1, 2], [3, 4], [5, 6]] (by simp) rfl (by simp)
  obtain ⟨⟨r, h1, h2⟩, -⟩ := c99_violated_reads { decayCfg L S false none none with diss := ⟨none, none, none, none, none, none⟩ } rfl rfl
    (by simp [decayCfg, decayPar]) [1, 2, 3] rfl (by simp [decayCfg]) (by simp [decayCfg, decayPar]) _ _ _ ha
  exact ⟨_, r, rfl, rfl, h1, h2.1⟩

end Verif.Solver
