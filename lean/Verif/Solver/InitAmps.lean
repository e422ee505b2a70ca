import Verif.Solver.PropThms

/-!
# C110: control amplitudes given to the constructor (solver_algorithms.py:106-108, 286)
-/

namespace Verif.Solver
open Verif Verif.Operator Matrix

section
variable {n m : Type} [Fintype n] [DecidableEq n]

/-- State after construction with the argument `ctrl_amps`, solver_algorithms.py:285-343.  Simplification: an array with fewer columns
than there are controls (IndexError when propagating) is not modelled. -/
def constructWith (cfg : Cfg n m) (τ : List ℝ) (u : Option Pulse) : St n m :=
  setTimes cfg τ ⟨[], [], none, none, u, none, none, none, none, none⟩

theorem constructWith_inv (cfg : Cfg n m) (τ : List ℝ) (u : Pulse) :
    Inv cfg u (constructWith cfg τ (some u)) ∧ (constructWith cfg τ (some u)).times = cfg.xTimes τ :=
  ⟨Inv.reset rfl, rfl⟩

/-- Reads. -/
def Op.isRead : Op → Bool
  | .set _ => false
  | .times _ => false
  | _ => true

theorem reads_inv {cfg : Cfg n m} (hst : Stable cfg) {u : Pulse} (ops : List Op) (hops : ∀ op ∈ ops, op.isRead = true) (s s' : St n m)
    (h : Inv cfg u s) (hrun : execOk cfg ops s = some s') : Inv cfg u s' ∧ s'.times = s.times := by
  induction ops generalizing s with
  | nil => cases hrun; exact ⟨h, rfl⟩
  | cons op ops ih =>
    unfold execOk at hrun
    split at hrun
    · rename_i s1 heq
      have h1 : Inv cfg u s1 ∧ s1.times = s.times := by
        cases op with
        | set y => have := hops _ List.mem_cons_self; simp [Op.isRead] at this
        | times τ => have := hops _ List.mem_cons_self; simp [Op.isRead] at this
        | props => obtain ⟨h2, rfl⟩ := run_none heq; exact (readProps_ok hst h).2 h2
        | fwd => obtain ⟨h2, rfl⟩ := run_none heq; exact (readFwd_ok hst h).2 h2
        | rev => obtain ⟨h2, rfl⟩ := run_none heq; exact (readRev_ok hst h).2 h2
        | deriv => obtain ⟨h2, rfl⟩ := run_none heq; exact (readDeriv_ok hst h).2 h2
      obtain ⟨h2, h3⟩ := ih (fun op' h' => hops op' (List.mem_cons_of_mem _ h')) s1 h1.1 hrun
      exact ⟨h2, h3.trans h1.2⟩
    · cases hrun

/-- **C110** (partial): a solver constructed with the amplitudes of an accepted pulse gives, after any reads, the results of a solver
on which this pulse was set; without amplitudes nothing can be read.
Missing: amplitudes no pulse could have, see `c110_violated_rows`. -/
theorem c110_initial_partial (cfg : Cfg n m) (hst : Stable cfg) (τ : List ℝ) (y u : Pulse)
    (hset : (setPars cfg y (construct cfg τ)).1 = none) (hu : (fresh cfg τ y).amps = some u) (ops : List Op)
    (hops : ∀ op ∈ ops, op.isRead = true) :
    (∀ s, execOk cfg ops (constructWith cfg τ (some u)) = some s → SameReads cfg s (fresh cfg τ y)) ∧
      constructWith cfg τ none = construct cfg τ := by
  obtain ⟨u', h1⟩ := (setPars_none_iff cfg τ y).1 hset
  obtain ⟨h2, h3⟩ := fresh_inv cfg τ y u' h1
  have : u' = u := by rw [h2.amps] at hu; exact Option.some.inj hu
  subst this
  refine ⟨fun s hs => ?_, rfl⟩
  obtain ⟨h4, h5⟩ := reads_inv hst ops hops _ s (constructWith_inv cfg τ u').1 hs
  exact h4.sameReads hst h2 (h5.trans ((constructWith_inv cfg τ u').2.trans h3.symm))

/-- **C110** Amplitudes given to the constructor, and what was read with them, are forgotten when a pulse is set. -/
theorem c110_forgotten (cfg : Cfg n m) (hst : Stable cfg) (τ : List ℝ) (u : Option Pulse) (ops : List Op)
    (hops : ∀ op ∈ ops, op.isRead = true) (y : Pulse) (hset : (setPars cfg y (construct cfg τ)).1 = none) :
    (setPars cfg y (exec cfg ops (constructWith cfg τ u))).1 = none ∧
      SameReads cfg (setPars cfg y (exec cfg ops (constructWith cfg τ u))).2 (fresh cfg τ y) := by
  have hframe : ∀ s : St n m, Frame s (exec cfg ops s) := by
    clear hset
    induction ops with
    | nil => exact fun s => ⟨rfl, rfl, rfl, rfl⟩
    | cons op ops ih =>
      intro s
      have h1 : Frame s (op.run cfg s).2 := frame_run cfg op s
        (by rintro y rfl; have := hops _ List.mem_cons_self; simp [Op.isRead] at this)
        (by rintro y rfl; have := hops _ List.mem_cons_self; simp [Op.isRead] at this)
      obtain ⟨a1, a2, a3, a4⟩ := ih (fun op' h' => hops op' (List.mem_cons_of_mem _ h')) (op.run cfg s).2
      obtain ⟨b1, b2, b3, b4⟩ := h1
      exact ⟨a1.trans b1, a2.trans b2, a3.trans b3, a4.trans b4⟩
  obtain ⟨f1, f2, f3, f4⟩ := hframe (constructWith cfg τ u)
  obtain ⟨u', h1⟩ := (setPars_none_iff cfg τ y).1 hset
  obtain ⟨h2, h3⟩ := fresh_inv cfg τ y u' h1
  have hopt : (exec cfg ops (constructWith cfg τ u)).optPars ≠ some y := by rw [f3]; simp [constructWith, setTimes, reset]
  have h4 : (exec cfg ops (constructWith cfg τ u)).times = cfg.xTimes (exec cfg ops (constructWith cfg τ u)).tau := by
    rw [f2, f1]; rfl
  have h5 := setPars_new cfg y (exec cfg ops (constructWith cfg τ u)) hopt h4
  have htau : (exec cfg ops (constructWith cfg τ u)).tau = τ := by rw [f1]; rfl
  rw [htau] at h5
  refine ⟨h5.1.2 ⟨u', h1⟩, (h5.2.2.2.2.1 u' h1).sameReads hst h2 ?_⟩
  rw [h5.2.2.1, h4, htau, h3]

/-! ## Amplitudes of the wrong shape -/

omit [Fintype n] [DecidableEq n] in
theorem addCtrl_append_zero (H : Matrix n n ℂ) (Gs : List (Matrix n n ℂ)) (as : List ℝ) (k : Nat) :
    addCtrl H Gs (as ++ List.replicate k 0) = addCtrl H Gs as := by
  induction Gs generalizing as with
  | nil => cases as <;> cases k <;> simp [addCtrl]
  | cons G Gs ih =>
    cases as with
    | cons a as => simp only [List.cons_append, addCtrl, ih]
    | nil =>
      have h0 : addCtrl H Gs [] = Gs := by cases Gs <;> rfl
      have : ∀ j (L : List (Matrix n n ℂ)), addCtrl H L (List.replicate j 0) = L := by
        intro j
        induction j with
        | zero => intro L; cases L <;> rfl
        | succ j ihj =>
          intro L
          cases L with
          | nil => rfl
          | cons G L => simp [List.replicate_succ, addCtrl, ihj]
      rw [List.nil_append, this]
      rfl

omit [Fintype n] [DecidableEq n] in
theorem schroedGens_append_zero (drift ctrl : List (Matrix n n ℂ)) (u : Pulse) (k : Nat) :
    schroedGens drift ctrl (u ++ List.replicate k (List.replicate ctrl.length 0)) = schroedGens drift ctrl u := by
  have hcol : ∀ c, column (u ++ List.replicate k (List.replicate ctrl.length 0)) c = column u c ++ List.replicate k 0 := by
    intro c
    simp only [column, List.map_append, List.map_replicate, List.getD_eq_getElem?_getD, List.getElem?_replicate]
    split <;> simp
  unfold schroedGens
  suffices h : ∀ (Hs : List (Matrix n n ℂ)) (c : Nat) (Gs : List (Matrix n n ℂ)),
      addCtrls (u ++ List.replicate k (List.replicate ctrl.length 0)) c Hs Gs = addCtrls u c Hs Gs from h _ _ _
  intro Hs
  induction Hs with
  | nil => exact fun _ _ => rfl
  | cons H Hs ih => intro c Gs; simp only [addCtrls, hcol, addCtrl_append_zero, ih]

/-- **C110** fails: amplitudes with too few rows are rejected when set as a pulse, but accepted by the constructor; the missing time
steps are propagated without control, silently. -/
theorem c110_violated_rows (p : SPar n m) (τ : List ℝ) (hst : Stable p.cfg) (u : Pulse) (k : Nat)
    (hk : u.length + k = (p.xTimes τ).length) (h0 : 0 < k) :
    (∀ y, p.tf τ y = .ok y → (∃ r : Raw, p.amp y = .ok r ∧ r.rows = u) →
      (setPars p.cfg y (construct p.cfg τ)).1 = some .valueError) ∧
    SameReads p.cfg (constructWith p.cfg τ (some u))
      (constructWith p.cfg τ (some (u ++ List.replicate k (List.replicate p.ctrl.length 0)))) := by
  constructor
  · rintro y h1 ⟨r, h2, rfl⟩
    unfold setPars
    rw [if_neg (by simp [construct, setTimes, reset])]
    have h3 : p.cfg.tf (reset (construct p.cfg τ)).tau y = .ok y := h1
    have h4 : p.cfg.amp y = .ok r := h2
    have h5 : checkAmps (p.xTimes τ).length p.ctrl.length r = some .valueError := by
      unfold checkAmps
      split
      · rfl
      · rw [if_pos (by omega)]
    have h6 : (construct p.cfg τ).tau = τ := rfl
    have h7 : p.cfg.tf τ y = .ok y := h1
    simp only [reset, h6, h7, h4]
    have h8 : checkAmps (construct p.cfg τ).times.length p.cfg.nCtrl r = some .valueError := h5
    rw [h8]
  · obtain ⟨a1, a2⟩ := constructWith_inv p.cfg τ u
    obtain ⟨b1, b2⟩ := constructWith_inv p.cfg τ (u ++ List.replicate k (List.replicate p.ctrl.length 0))
    have hg : p.cfg.gens (u ++ List.replicate k (List.replicate p.ctrl.length 0)) = p.cfg.gens u :=
      schroedGens_append_zero p.drift p.ctrl u k
    have hd : ∀ t, p.cfg.dirs t (u ++ List.replicate k (List.replicate p.ctrl.length 0)) = p.cfg.dirs t u := fun _ => rfl
    have hD : cellsD p.cfg (p.cfg.xTimes τ) u = cellsD p.cfg (p.cfg.xTimes τ) (u ++ List.replicate k (List.replicate p.ctrl.length 0)) := by
      simp only [cellsD, hg, hd]
    have hP : cellsP p.cfg (p.cfg.xTimes τ) u = cellsP p.cfg (p.cfg.xTimes τ) (u ++ List.replicate k (List.replicate p.ctrl.length 0)) := by
      simp only [cellsP, hg]
    have hc : cells p.cfg (p.cfg.xTimes τ) u = cells p.cfg (p.cfg.xTimes τ) (u ++ List.replicate k (List.replicate p.ctrl.length 0)) := by
      simp only [cells, hD, hP]
    refine ⟨?_, ?_, ?_, ?_⟩
    · rw [(readProps_ok hst a1).1, (readProps_ok hst b1).1, a2, b2]; simp only [specProps, hc]
    · rw [(readFwd_ok hst a1).1, (readFwd_ok hst b1).1, a2, b2]; simp only [specFwd, hc]
    · rw [(readRev_ok hst a1).1, (readRev_ok hst b1).1, a2, b2]; simp only [specRev, hc]
    · rw [(readDeriv_ok hst a1).1, (readDeriv_ok hst b1).1, a2, b2]; simp only [specDeriv, grapeCells, hD, hP, hd]

/-- A qubit with three time steps: amplitudes of three steps, replaced by a pulse, and amplitudes of two steps. -/
example (L : Lapack (Fin 2)) : let p := qubitPar L .none true
    SameReads p.cfg (constructWith p.cfg [1, 2, 3] (some [[1, 2], [3, 4], [5, 6]])) (fresh p.cfg [1, 2, 3] [[1, 2], [3, 4], [5, 6]]) ∧
    SameReads p.cfg (setPars p.cfg [[1, 2], [3, 4], [5, 6]] (constructWith p.cfg [1, 2, 3] (some [[7, 8]]))).2
      (fresh p.cfg [1, 2, 3] [[1, 2], [3, 4], [5, 6]]) ∧
    SameReads p.cfg (constructWith p.cfg [1, 2, 3] (some [[1, 2], [3, 4]]))
      (constructWith p.cfg [1, 2, 3] (some [[1, 2], [3, 4], [0, 0]])) ∧
    (setPars p.cfg [[1, 2], [3, 4]] (construct p.cfg [1, 2, 3])).1 = some .valueError := by
  intro p
  have hst : Stable p.cfg := Or.inl ⟨rfl, rfl⟩
  have h1 : (setPars p.cfg [[1, 2], [3, 4], [5, 6]] (construct p.cfg [1, 2, 3])).1 = none :=
    (setPars_none_iff _ _ _).mpr ⟨_, qubitPar_amps L _ _ _ rfl (by simp)⟩
  have h2 := (fresh_inv p.cfg [1, 2, 3] _ _ (qubitPar_amps L .none true [[1, 2], [3, 4], [5, 6]] rfl (by simp))).1.amps
  refine ⟨(c110_initial_partial p.cfg hst [1, 2, 3] _ _ h1 h2 [] (by simp)).1 _ rfl,
    (c110_forgotten p.cfg hst [1, 2, 3] (some [[7, 8]]) [] (by simp) _ h1).2,
    (c110_violated_rows p [1, 2, 3] hst [[1, 2], [3, 4]] 1 rfl one_pos).2,
    (c110_violated_rows p [1, 2, 3] hst [[1, 2], [3, 4]] 1 rfl one_pos).1 _ rfl ?_⟩
  obtain ⟨r, h3, -, -, h6⟩ := idAmp_ok [[1, 2], [3, 4]] 2 (by simp) (by simp)
  exact ⟨r, h3, h6⟩

end
end Verif.Solver
