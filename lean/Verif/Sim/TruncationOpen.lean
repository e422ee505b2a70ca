import Verif.Sim.Truncation
import Verif.Sim.ConservedOpen
import Verif.Cost.OpenLeak

/-!
# C180: levels left out of the simulation of an open system

The Hamiltonians and Lindblad operators are restricted with `DenseOperator.truncate_to_subspace` (matrix.py:1261-1303) to the
computational states before the `LindbladSolver` (solver_algorithms.py:1760-2160) is created, instead of passing `computational_states` to
`OperationInfidelity` (cost_functions.py:1171-1316).
-/

namespace Verif.Sim
open Verif Verif.Transfer Verif.Operator Verif.Solver Verif.Cost Matrix
open scoped Kronecker

variable {n m k : Type} [Fintype n] [DecidableEq n]

/-! ## Specification -/

/-- The operator restricted to the states of `l`. -/
def cut (l : List n) (H : Matrix n n ℂ) : Matrix (Fin l.length) (Fin l.length) ℂ := H.submatrix l.get l.get

/-- The step of the smaller system. -/
def cutStep (l : List n) (s : OpenStep n) : OpenStep (Fin l.length) := ⟨cut l s.H, s.τ, s.u, s.x⟩

/-- The solver of the smaller system has the truncated Hamiltonians and Lindblad operators and the same rates. -/
structure LeavesOutOpen (l : List n) (p : LPar n) (Ls : List (Matrix n n ℂ)) (r : LPar (Fin l.length)) : Prop where
  ctrl : r.ctrl = p.ctrl.map (cut l)
  supOp : r.diss.supOp = none
  lindblad : r.diss.lindblad = some (Ls.map (cut l))
  prefactor : r.diss.prefactor = p.diss.prefactor

/-- Neither the Hamiltonians nor the dissipation lead out of the subspace. Lindblad operators which bring population into it from other
levels are allowed. -/
structure StaysInOpen (l : List n) (p : LPar n) (Ls : List (Matrix n n ℂ)) (S : List (OpenStep n)) : Prop where
  distinct : l.Nodup
  drift : ∀ s ∈ S, Closed l (· ∈ l) s.H
  ctrl : ∀ H ∈ p.ctrl, Closed l (· ∈ l) H
  jumps : ∀ A ∈ Ls, Closed l (· ∈ l) A
  decay : ∀ A ∈ Ls, Closed l (· ∈ l) (Aᴴ * A)

/-! ## Lemmas -/

/-- Density matrices of the subspace as density matrices of the large space. -/
def embSup (l : List n) : Matrix (n × n) (Fin l.length × Fin l.length) ℂ := emb l ⊗ₖ emb l

omit [Fintype n] in
theorem emb_star (l : List n) : (emb l).map (starRingEnd ℂ) = emb l := by
  ext i a
  simp only [Matrix.map_apply, emb]
  split <;> simp

theorem conj_emb {l : List n} {A : Matrix n n ℂ} {B : Matrix (Fin l.length) (Fin l.length) ℂ} (h : A * emb l = emb l * B) :
    conjM A * emb l = emb l * conjM B := by
  have := congrArg (fun M => M.map (starRingEnd ℂ)) h
  simp only [Matrix.map_mul, emb_star] at this
  exact this

theorem kron_emb {l : List n} {A A' : Matrix n n ℂ} {B B' : Matrix (Fin l.length) (Fin l.length) ℂ} (h : A * emb l = emb l * B)
    (h' : A' * emb l = emb l * B') : (A ⊗ₖ A') * embSup l = embSup l * (B ⊗ₖ B') := by
  unfold embSup
  rw [← Matrix.mul_kronecker_mul, ← Matrix.mul_kronecker_mul, h, h']

theorem one_emb (l : List n) : (1 : Matrix n n ℂ) * emb l = emb l * (1 : Matrix (Fin l.length) (Fin l.length) ℂ) := by rw [Matrix.one_mul, Matrix.mul_one]

theorem gram_cut {l : List n} (hl : l.Nodup) {A : Matrix n n ℂ} (h : Closed l (· ∈ l) A) : cut l (Aᴴ * A) = (cut l A)ᴴ * cut l A := by
  have e : cut l (Aᴴ * A) = (emb l)ᴴ * (Aᴴ * A) * emb l := by
    rw [emb_mul, mul_emb]
    rfl
  rw [e, Matrix.mul_assoc, Matrix.mul_assoc, closed_emb hl h, ← Matrix.mul_assoc, ← Matrix.conjTranspose_mul, closed_emb hl h,
    Matrix.conjTranspose_mul, Matrix.mul_assoc, ← Matrix.mul_assoc (emb l)ᴴ, emb_isometry hl, Matrix.one_mul]
  rfl

theorem diss_emb {l : List n} (hl : l.Nodup) {A : Matrix n n ℂ} (h : Closed l (· ∈ l) A) (h2 : Closed l (· ∈ l) (Aᴴ * A)) :
    dissOf A * embSup l = embSup l * dissOf (cut l A) := by
  have e : ∀ {q : Type} [Fintype q] (B : Matrix q q ℂ), Bᵀ * conjM B = conjM (Bᴴ * B) := by
    intro q _ B
    ext i j
    simp [conjM, Matrix.mul_apply, Matrix.map_apply]
  have g := closed_emb hl h2
  rw [show (Aᴴ * A).submatrix l.get l.get = (cut l A)ᴴ * cut l A from gram_cut hl h] at g
  unfold dissOf
  rw [e, e, Matrix.sub_mul, Matrix.sub_mul, Matrix.mul_sub, Matrix.mul_sub, Matrix.smul_mul, Matrix.smul_mul, Matrix.mul_smul,
    Matrix.mul_smul, kron_emb (conj_emb (closed_emb hl h)) (closed_emb hl h), kron_emb (one_emb l) g, kron_emb (conj_emb g) (one_emb l)]
  rfl

theorem wDiss_emb {l : List n} (hl : l.Nodup) {Ls : List (Matrix n n ℂ)} (h : ∀ A ∈ Ls, Closed l (· ∈ l) A)
    (h2 : ∀ A ∈ Ls, Closed l (· ∈ l) (Aᴴ * A)) (ws : List ℝ) :
    wDiss (ws.zip Ls) * embSup l = embSup l * wDiss (ws.zip (Ls.map (cut l))) := by
  unfold wDiss
  induction ws generalizing Ls with
  | nil => simp
  | cons w ws ih =>
    cases Ls with
    | nil => simp
    | cons A Ls =>
      simp only [List.map_cons, List.zip_cons_cons, List.sum_cons]
      rw [Matrix.add_mul, Matrix.mul_add, ih (fun B hB => h B (by simp [hB])) fun B hB => h2 B (by simp [hB]), Matrix.smul_mul,
        Matrix.mul_smul, diss_emb hl (h A (by simp)) (h2 A (by simp))]

theorem stepProp_emb {l : List n} {p : LPar n} {Ls : List (Matrix n n ℂ)} {r : LPar (Fin l.length)} (hr : LeavesOutOpen l p Ls r)
    {S : List (OpenStep n)} (hs : StaysInOpen l p Ls S) {s : OpenStep n} (h : s ∈ S) :
    stepProp p Ls s * embSup l = embSup l * stepProp r (Ls.map (cut l)) (cutStep l s) := by
  have hw : weightsAt r (Ls.map (cut l)) [(cutStep l s).u] [(cutStep l s).x] 0 = weightsAt p Ls [s.u] [s.x] 0 := by
    unfold weightsAt
    rw [hr.prefactor, List.length_map]
    rfl
  unfold stepProp
  refine exp_intertwine ?_
  rw [Matrix.smul_mul, show (cutStep l s).τ = s.τ from rfl, Matrix.mul_smul]
  congr 1
  unfold Solver.stepGen supGen
  have hH : ((-Complex.I) • hamiltonian s.H p.ctrl s.u) * emb l = emb l * ((-Complex.I) • hamiltonian (cutStep l s).H r.ctrl (cutStep l s).u) := by
    rw [Matrix.smul_mul, Matrix.mul_smul, hamiltonian_emb hs.distinct (hs.drift s h) hs.ctrl, hr.ctrl]
    rfl
  rw [hw, Matrix.add_mul, Matrix.add_mul, Matrix.mul_add, Matrix.mul_add, kron_emb (one_emb l) hH, kron_emb (conj_emb hH) (one_emb l),
    wDiss_emb hs.distinct hs.jumps hs.decay]

theorem foldl_embSup {l : List n} {A : OpenStep n → Sup n} {B : OpenStep n → Sup (Fin l.length)} (S : List (OpenStep n))
    (h : ∀ s ∈ S, A s * embSup l = embSup l * B s) {F : Sup n} {G : Sup (Fin l.length)} (h0 : F * embSup l = embSup l * G) :
    (S.map A).foldl (fun X P => P * X) F * embSup l = embSup l * (S.map B).foldl (fun X P => P * X) G := by
  induction S generalizing F G with
  | nil => exact h0
  | cons s S ih =>
    refine ih (fun t ht => h t (by simp [ht])) ?_
    rw [Matrix.mul_assoc, h0, ← Matrix.mul_assoc, h s (by simp), Matrix.mul_assoc]

theorem LeavesOutOpen.local {l : List n} {p : LPar n} {Ls : List (Matrix n n ℂ)} {r : LPar (Fin l.length)} (hr : LeavesOutOpen l p Ls r)
    (h : p.Local Ls) : r.Local (Ls.map (cut l)) := by
  refine ⟨hr.supOp, hr.lindblad, by simpa using h.2.2.1, fun f hf => ?_⟩
  rw [hr.prefactor] at hf
  obtain ⟨φ, a, b⟩ := h.2.2.2 f hf
  exact ⟨φ, a, fun u x => by rw [b, List.length_map]⟩

/-- The propagators of both systems, after any number of steps. -/
theorem open_emb {l : List n} {p : LPar n} {Ls : List (Matrix n n ℂ)} {r : LPar (Fin l.length)} (hr : LeavesOutOpen l p Ls r)
    (h : p.Local Ls) (hm : p.method = .frechet) (hE : p.L.ExpmOk) (hi : p.init = 1) (hm' : r.method = .frechet) (hE' : r.L.ExpmOk)
    (hi' : r.init = 1) (S : List (OpenStep n)) (hS : S ≠ []) (hs : StaysInOpen l p Ls S) (hrow : ∀ s ∈ S, s.u.length = p.ctrl.length) :
    ∃ (f : List (Sup n)) (f' : List (Sup (Fin l.length))), openRun p S = .ok f ∧ openRun r (S.map (cutStep l)) = .ok f' ∧
      f.length = S.length + 1 ∧ f'.length = S.length + 1 ∧
      ∀ i ≤ S.length, ∃ F F', f[i]? = some F ∧ f'[i]? = some F' ∧ F * embSup l = embSup l * F' := by
  obtain ⟨f, e1, e2⟩ := openRun_ok p h hm hE S hS hrow
  obtain ⟨f', e3, e4⟩ := openRun_ok r (hr.local h) hm' hE' (S.map (cutStep l)) (by simpa using hS) (by
    intro s hs
    obtain ⟨t, ht, rfl⟩ := List.mem_map.mp hs
    rw [hr.ctrl, List.length_map]
    exact hrow t ht)
  refine ⟨f, f', e1, e3, by simpa using e2.1, by simpa using e4.1, fun i hi => ?_⟩
  refine ⟨_, _, isForward_unique e2 i (by simpa using hi), isForward_unique e4 i (by simpa using hi), ?_⟩
  rw [List.map_map, ← List.map_take, ← List.map_take]
  refine foldl_embSup _ (fun s hs' => stepProp_emb hr hs (List.mem_of_mem_take hs')) ?_
  rw [‹p.init = 1›, hi', Matrix.one_mul, Matrix.mul_one]

theorem embSup_vec (l : List n) (ρ : Matrix (Fin l.length) (Fin l.length) ℂ) :
    embSup l *ᵥ Matrix.vec ρ = Matrix.vec (emb l * ρ * (emb l)ᴴ) := by
  unfold embSup
  rw [Matrix.kronecker_mulVec_vec]
  congr 2
  ext a i
  simp only [Matrix.transpose_apply, Matrix.conjTranspose_apply, emb]
  split <;> simp

theorem embSup_isometry {l : List n} (hl : l.Nodup) : (embSup l)ᴴ * embSup l = 1 := by
  unfold embSup
  rw [Matrix.conjTranspose_kronecker, ← Matrix.mul_kronecker_mul, emb_isometry hl, Matrix.one_kronecker_one]

theorem lift_sup (l : List n) (T : Matrix (Fin l.length) (Fin l.length) ℂ) :
    unitarySup (liftTarget (some l) T) = embSup l * unitarySup T * (embSup l)ᴴ := by
  have e : liftTarget (some l) T = emb l * T * (emb l)ᴴ := rfl
  have e2 : ((emb l)ᴴ).map (starRingEnd ℂ) = (emb l)ᴴ := by
    ext a i
    simp only [Matrix.map_apply, Matrix.conjTranspose_apply, emb]
    split <;> simp
  rw [e]
  unfold unitarySup embSup conjM
  rw [Matrix.map_mul, Matrix.map_mul, emb_star, e2, Matrix.conjTranspose_kronecker, ← Matrix.mul_kronecker_mul, ← Matrix.mul_kronecker_mul]

theorem entFidSup_emb {l : List n} (hl : l.Nodup) (T : Matrix (Fin l.length) (Fin l.length) ℂ) {P : Sup n} {Q : Sup (Fin l.length)}
    (h : P * embSup l = embSup l * Q) : entFidSup (some l) T P = entFidSup (n := Fin l.length) none T Q := by
  have h1 : liftTarget (n := Fin l.length) none T = T := lift_none T
  have h2 : dim (some l) = dim (n := Fin l.length) none := rfl
  refine (entFidSup_lift (some l) (fun l' h => by cases h; exact hl) T P).trans
    (Eq.trans ?_ (entFidSup_lift (n := Fin l.length) none (fun l' h => by cases h) T Q).symm)
  have key : ((unitarySup (liftTarget (some l) T))ᴴ * P).trace = ((unitarySup T)ᴴ * Q).trace := by
    rw [lift_sup, Matrix.conjTranspose_mul, Matrix.conjTranspose_mul, Matrix.conjTranspose_conjTranspose, Matrix.mul_assoc,
      Matrix.trace_mul_comm, Matrix.mul_assoc, Matrix.mul_assoc, h, ← Matrix.mul_assoc (embSup l)ᴴ, embSup_isometry hl, Matrix.one_mul]
  rw [h1, h2, key]

/-! ## The property -/

/-- **C180** (states) At the end of every time step, a density matrix of the subspace has become in the large system what it has become in
the small one. -/
theorem c180_states (l : List n) (p : LPar n) (Ls : List (Matrix n n ℂ)) (r : LPar (Fin l.length)) (hr : LeavesOutOpen l p Ls r)
    (h : p.Local Ls) (hm : p.method = .frechet) (hE : p.L.ExpmOk) (hi : p.init = 1) (hm' : r.method = .frechet) (hE' : r.L.ExpmOk)
    (hi' : r.init = 1) (S : List (OpenStep n)) (hS : S ≠ []) (hs : StaysInOpen l p Ls S) (hrow : ∀ s ∈ S, s.u.length = p.ctrl.length) :
    ∃ (f : List (Sup n)) (f' : List (Sup (Fin l.length))), openRun p S = .ok f ∧ openRun r (S.map (cutStep l)) = .ok f' ∧
      f.length = S.length + 1 ∧ f'.length = S.length + 1 ∧
      ∀ i ≤ S.length, ∃ F F', f[i]? = some F ∧ f'[i]? = some F' ∧
        ∀ ρ ρ' : Matrix (Fin l.length) (Fin l.length) ℂ, F' *ᵥ Matrix.vec ρ = Matrix.vec ρ' →
          F *ᵥ Matrix.vec (emb l * ρ * (emb l)ᴴ) = Matrix.vec (emb l * ρ' * (emb l)ᴴ) := by
  obtain ⟨f, f', e1, e2, e3, e4, e5⟩ := open_emb hr h hm hE hi hm' hE' hi' S hS hs hrow
  refine ⟨f, f', e1, e2, e3, e4, fun i hi => ?_⟩
  obtain ⟨F, F', g1, g2, g3⟩ := e5 i hi
  refine ⟨F, F', g1, g2, fun ρ ρ' hρ => ?_⟩
  rw [← embSup_vec, Matrix.mulVec_mulVec, g3, ← Matrix.mulVec_mulVec, hρ, embSup_vec]

/-- **C180** (infidelity) `OperationInfidelity` with `computational_states` on the large system is `OperationInfidelity` of the small
one. -/
theorem c180_infidelity (l : List n) (p : LPar n) (Ls : List (Matrix n n ℂ)) (r : LPar (Fin l.length)) (hr : LeavesOutOpen l p Ls r)
    (h : p.Local Ls) (hm : p.method = .frechet) (hE : p.L.ExpmOk) (hi : p.init = 1) (hm' : r.method = .frechet) (hE' : r.L.ExpmOk)
    (hi' : r.init = 1) (S : List (OpenStep n)) (hS : S ≠ []) (hs : StaysInOpen l p Ls S) (hrow : ∀ s ∈ S, s.u.length = p.ctrl.length)
    (T : Matrix (Fin l.length) (Fin l.length) ℂ) :
    ∃ c : ℝ, (openRun p S >>= opCostsSup (some l) T) = .ok c ∧
      (openRun r (S.map (cutStep l)) >>= opCostsSup (n := Fin l.length) none T) = .ok c := by
  obtain ⟨f, f', e1, e2, e3, e4, e5⟩ := open_emb hr h hm hE hi hm' hE' hi' S hS hs hrow
  obtain ⟨F, F', g1, g2, g3⟩ := e5 S.length le_rfl
  have k1 : f.getLast? = some F := by rw [List.getLast?_eq_getElem?, e3]; exact g1
  have k2 : f'.getLast? = some F' := by rw [List.getLast?_eq_getElem?, e4]; exact g2
  refine ⟨1 - entFidSup (some l) T F, ?_, ?_⟩
  · rw [e1]
    simp only [bind, Except.bind]
    unfold opCostsSup
    rw [last_ok k1]
    rfl
  · rw [e2, entFidSup_emb hs.distinct T g3]
    simp only [bind, Except.bind]
    unfold opCostsSup
    rw [last_ok k2]
    rfl

/-- **C180** (leakage) `LeakageLiouville` of the large system is zero. -/
theorem c180_leakage (l : List n) (hne : l ≠ []) (p : LPar n) (Ls : List (Matrix n n ℂ)) (h : p.Local Ls) (hm : p.method = .frechet)
    (hE : p.L.ExpmOk) (hi : p.init = 1) (hc : ∀ H ∈ p.ctrl, H.IsHermitian) (S : List (OpenStep n)) (hS : Playable p S)
    (hs : StaysInOpen l p Ls S) : openLeak p l S = .ok 0 := by
  obtain ⟨L, -, -, hE', -⟩ := lapack_exists (Fin l.length × Fin l.length)
  let r : LPar (Fin l.length) := ⟨L, .frechet, false, 1, [], p.ctrl.map (cut l),
    ⟨none, some (Ls.map (cut l)), p.diss.prefactor, none, none, none⟩⟩
  have hr : LeavesOutOpen l p Ls r := ⟨rfl, rfl, rfl, rfl⟩
  obtain ⟨f, f', e1, -, e3, -, e5⟩ := open_emb hr h hm hE hi rfl hE' rfl S hS.nonempty hs hS.cols
  obtain ⟨F, F', g1, -, g3⟩ := e5 S.length le_rfl
  have k1 : f.getLast? = some F := by rw [List.getLast?_eq_getElem?, e3]; exact g1
  obtain ⟨f₂, m, K, b1, b2, b3⟩ := hS.kraus h hm hE hi hc
  rw [e1] at b1
  cases b1
  rw [k1] at b2
  cases b2
  rw [openLeak_ok e1 k1]
  congr 1
  have hd : (l.length : ℝ) ≠ 0 := by exact_mod_cast (List.length_pos_iff.mpr hne).ne'
  refine (mul_eq_zero.mp ?_).resolve_left hd
  rw [leak_kraus l hs.distinct hne K b3]
  have hP : proj l = emb l * (1 : Matrix (Fin l.length) (Fin l.length) ℂ) * (emb l)ᴴ := by
    rw [Matrix.mul_one]
    ext i j
    by_cases hi : i ∈ l
    · obtain ⟨a, rfl⟩ := List.get_of_mem hi
      rw [emb_mul_in hs.distinct]
      by_cases hij : l.get a = j <;> simp [proj, Matrix.conjTranspose_apply, emb, hij, Matrix.diagonal_apply]
    · rw [emb_mul_out l _ hi]
      simp [proj, Matrix.diagonal_apply, hi]
  have key : Matrix.vec (kraus K (proj l)) =
      Matrix.vec (emb l * (Matrix.of fun a b => (F' *ᵥ Matrix.vec (1 : Matrix (Fin l.length) (Fin l.length) ℂ)) (b, a)) * (emb l)ᴴ) := by
    have a1 : (∑ x, Solver.unitarySup (K x)) *ᵥ Matrix.vec (proj l) = Matrix.vec (kraus K (proj l)) := kraus_action K (proj l)
    rw [← a1, hP, ← embSup_vec, Matrix.mulVec_mulVec, g3, ← Matrix.mulVec_mulVec, ← embSup_vec]
    rfl
  rw [Matrix.vec_inj.mp key]
  unfold outside
  refine Finset.sum_eq_zero fun i _ => ?_
  by_cases hi : i ∈ l
  · rw [if_pos hi]
  · rw [if_neg hi, Matrix.mul_assoc, emb_mul_out l _ hi, Complex.zero_re]

/-! ## The gradient -/

/-- The solver of the smaller system has the truncated Hamiltonians, and these do not lead out of the subspace. -/
structure CutSystem (l : List n) (p : LPar n) (r : LPar (Fin l.length)) : Prop where
  distinct : l.Nodup
  drift : r.drift = p.drift.map (cut l)
  ctrl : r.ctrl = p.ctrl.map (cut l)
  init : p.init = 1
  init' : r.init = 1
  closedDrift : ∀ H ∈ p.drift, Closed l (· ∈ l) H
  closedCtrl : ∀ H ∈ p.ctrl, Closed l (· ∈ l) H

omit [Fintype n] in
theorem CutSystem.length [Fintype n] {l : List n} {p : LPar n} {r : LPar (Fin l.length)} (h : CutSystem l p r) :
    r.ctrl.length = p.ctrl.length := by rw [h.ctrl, List.length_map]

/-- The amplitudes of one system as amplitudes of another one with as many controls. -/
def sameRow {a b : Nat} (h : a = b) (v : Fin a → ℝ) : Fin b → ℝ := fun k => v (Fin.cast h.symm k)

/-- The dissipation of the smaller system has the truncated Lindblad operators and the same rates. -/
def CutDiss {N a b : Nat} (l : List n) (h : b = a) (E : Fin N → (Fin a → ℝ) → Sup n) (E' : Fin N → (Fin b → ℝ) → Sup (Fin l.length)) : Prop :=
  ∀ t v, ∃ ws : List (ℝ × Matrix n n ℂ), E t (sameRow h v) = (ws.map fun w => ((w.1 : ℝ) : ℂ) • dissOf w.2).sum ∧
    E' t v = (ws.map fun w => ((w.1 : ℝ) : ℂ) • dissOf (cut l w.2)).sum ∧
    ∀ w ∈ ws, Closed l (· ∈ l) w.2 ∧ Closed l (· ∈ l) (w.2ᴴ * w.2)

theorem CutDiss.emb {N a b : Nat} {l : List n} (hl : l.Nodup) {h : b = a} {E : Fin N → (Fin a → ℝ) → Sup n}
    {E' : Fin N → (Fin b → ℝ) → Sup (Fin l.length)} (hE : CutDiss l h E E') (t : Fin N) (v : Fin b → ℝ) :
    E t (sameRow h v) * embSup l = embSup l * E' t v := by
  obtain ⟨ws, e1, e2, e3⟩ := hE t v
  rw [e1, e2]
  clear e1 e2
  induction ws with
  | nil => simp
  | cons w ws ih =>
    simp only [List.map_cons, List.sum_cons]
    rw [Matrix.add_mul, Matrix.mul_add, ih fun x hx => e3 x (by simp [hx]), Matrix.smul_mul, Matrix.mul_smul,
      diss_emb hl (e3 w (by simp)).1 (e3 w (by simp)).2]

theorem lindFinal_emb {l : List n} {p : LPar n} {r : LPar (Fin l.length)} (hr : CutSystem l p r) {τ : List ℝ} (hd : p.drift.length = τ.length)
    {E : Fin τ.length → (Fin p.ctrl.length → ℝ) → Sup n} {E' : Fin τ.length → (Fin r.ctrl.length → ℝ) → Sup (Fin l.length)}
    (hE : CutDiss l hr.length E E') (V : Fin τ.length → Fin r.ctrl.length → ℝ) :
    lindFinal p τ E (fun t => sameRow hr.length (V t)) * embSup l = embSup l * lindFinal r τ E' V := by
  have hstep : ∀ t, NormedSpace.exp ((τ.get t : ℂ) • Cost.stepGen p E t (sameRow hr.length (V t))) * embSup l =
      embSup l * NormedSpace.exp ((τ.get t : ℂ) • Cost.stepGen r E' t (V t)) := by
    intro t
    refine exp_intertwine ?_
    rw [Matrix.smul_mul, Matrix.mul_smul]
    congr 1
    unfold Cost.stepGen supGen
    have ht : (t : Nat) < p.drift.length := by rw [hd]; exact t.2
    have hdr : r.drift.getD t 0 = cut l (p.drift.getD t 0) := by
      simp [hr.drift, List.getD, List.getElem?_eq_getElem ht]
    have hH : (p.drift.getD t 0 + ∑ k, (sameRow hr.length (V t) k : ℂ) • p.ctrl.get k) * Sim.emb l =
        Sim.emb l * (r.drift.getD t 0 + ∑ k, (V t k : ℂ) • r.ctrl.get k) := by
      rw [Matrix.add_mul, Matrix.mul_add, hdr]
      congr 1
      · refine closed_emb hr.distinct (hr.closedDrift _ ?_)
        rw [List.getD_eq_getElem _ _ ht]
        exact List.getElem_mem _
      · rw [Matrix.sum_mul, Matrix.mul_sum]
        refine Fintype.sum_equiv (finCongr hr.length.symm) _ _ fun k => ?_
        have hk : r.ctrl.get (finCongr hr.length.symm k) = cut l (p.ctrl.get k) := by
          simp [hr.ctrl]
        rw [hk, Matrix.smul_mul, Matrix.mul_smul, closed_emb hr.distinct (hr.closedCtrl _ (List.get_mem _ _))]
        rfl
    have hI : ((-Complex.I) • (p.drift.getD t 0 + ∑ k, (sameRow hr.length (V t) k : ℂ) • p.ctrl.get k)) * Sim.emb l =
        Sim.emb l * ((-Complex.I) • (r.drift.getD t 0 + ∑ k, (V t k : ℂ) • r.ctrl.get k)) := by
      rw [Matrix.smul_mul, Matrix.mul_smul, hH]
    rw [Matrix.add_mul, Matrix.add_mul, Matrix.mul_add, Matrix.mul_add, kron_emb (one_emb l) hI, kron_emb (conj_emb hI) (one_emb l),
      hE.emb hr.distinct]
  have hfold : ∀ (P : List (Sup n × Sup (Fin l.length))) (F : Sup n) (G : Sup (Fin l.length)),
      (∀ x ∈ P, x.1 * embSup l = embSup l * x.2) → F * embSup l = embSup l * G →
      (P.map Prod.fst).foldl (fun F P => P * F) F * embSup l = embSup l * (P.map Prod.snd).foldl (fun F P => P * F) G := by
    intro P
    induction P with
    | nil => exact fun F G _ h => h
    | cons x P ih =>
      intro F G hx h0
      refine ih _ _ (fun y hy => hx y (by simp [hy])) ?_
      rw [Matrix.mul_assoc, h0, ← Matrix.mul_assoc, hx x (by simp), Matrix.mul_assoc]
  have := hfold (List.ofFn fun t => (NormedSpace.exp ((τ.get t : ℂ) • Cost.stepGen p E t (sameRow hr.length (V t))),
    NormedSpace.exp ((τ.get t : ℂ) • Cost.stepGen r E' t (V t)))) p.init r.init (by
      intro x hx
      obtain ⟨t, rfl⟩ := (List.mem_ofFn' _ _).mp hx
      exact hstep t) (by rw [hr.init, hr.init', Matrix.one_mul, Matrix.mul_one])
  rw [List.map_ofFn, List.map_ofFn] at this
  exact this

theorem rows_same {N a b : Nat} (h : a = b) (V : Fin N → Fin a → ℝ) : rowsOf (fun t => sameRow h (V t)) = rowsOf V := by
  subst h
  rfl

/-- **C180** (gradient) The infidelities of both systems and their gradients are equal, also if the rates depend on the amplitudes. -/
theorem c180_gradient (l : List n) (p : LPar n) (r : LPar (Fin l.length)) (hr : CutSystem l p r) (τ : List ℝ) (h : LExact p τ)
    (h' : LExact r τ) (E : Fin τ.length → (Fin p.ctrl.length → ℝ) → Sup n) (hE : GivenDiss p τ.length E)
    (E' : Fin τ.length → (Fin r.ctrl.length → ℝ) → Sup (Fin l.length)) (hE' : GivenDiss r τ.length E') (hEE : CutDiss l hr.length E E')
    (T : Matrix (Fin l.length) (Fin l.length) ℂ) (V : Fin τ.length → Fin r.ctrl.length → ℝ) (x x' : Solver.Pulse) :
    ∃ (c : ℝ) (g : Fin τ.length → Fin r.ctrl.length → ℝ),
      lindCosts (some l) T p τ (rowsOf V) x = .ok c ∧ lindCosts (n := Fin l.length) none T r τ (rowsOf V) x' = .ok c ∧
      lindGrad (some l) T p τ (rowsOf V) x = .ok (rowsOf g) ∧ lindGrad (n := Fin l.length) none T r τ (rowsOf V) x' = .ok (rowsOf g) := by
  obtain ⟨a, a1, a2, L, a3, a4⟩ := c98_total p τ h E hE (some l) T (fun t => sameRow hr.length (V t)) x
  obtain ⟨b, b1, b2, L', b3, b4⟩ := c98_total r τ h' E' hE' none T V x'
  have hv : ∀ W : Fin τ.length → Fin r.ctrl.length → ℝ, entFidSup (some l) T (lindFinal p τ E fun t => sameRow hr.length (W t)) =
      entFidSup (n := Fin l.length) none T (lindFinal r τ E' W) := fun W => entFidSup_emb hr.distinct T (lindFinal_emb hr h.drift hEE W)
  have c1 := a2 (fun t => sameRow hr.length (V t)) x
  rw [rows_same] at a1 c1
  refine ⟨_, b, c1, (b2 V x').trans (congrArg Except.ok ?_), a1.trans (congrArg Except.ok ?_), b1⟩
  · exact congrArg (fun y : ℝ => 1 - y) (hv V).symm
  · have hmix : ∀ v : Fin r.ctrl.length → ℝ,
        mixRow (fun (k : Fin r.ctrl.length) (l : Fin p.ctrl.length) => if k.1 = l.1 then (1 : ℝ) else 0) (fun _ => 0) v = sameRow hr.length v := by
      intro v
      funext j
      simp only [mixRow, sameRow, add_zero]
      rw [Finset.sum_eq_single (Fin.cast hr.length.symm j)]
      · simp
      · intro k _ hk
        have : ¬ k.1 = j.1 := fun e => hk (Fin.ext e)
        simp [this]
      · simp
    have key := grad_affine rfl (fun (k : Fin r.ctrl.length) (l : Fin p.ctrl.length) => if k.1 = l.1 then (1 : ℝ) else 0) (fun _ => 0)
      (f := fun V => 1 - entFidSup (some l) T (lindFinal p τ E V)) (f' := fun V => 1 - entFidSup (n := Fin l.length) none T (lindFinal r τ E' V))
      (fun W => by
        simp only [hmix]
        exact congrArg (fun y : ℝ => 1 - y) (hv W).symm) (V := V) (by simp only [hmix]; exact a3) b3 a4 b4
    rw [← rows_same hr.length b]
    congr 1
    funext t k
    have := key t (Fin.cast hr.length.symm k)
    refine Eq.symm (this.trans ?_)
    rw [Finset.sum_eq_single k]
    · simp
    · intro j _ hj
      have : ¬ k.1 = j.1 := fun e => hj (Fin.ext e.symm)
      simp [this]
    · simp

/-! ## Concrete cases -/

namespace Ex180

/-- Three levels; a control of the lowest two, decay from each level to the next lower one. -/
noncomputable def ladder (L : Lapack (Fin 3 × Fin 3)) : LPar (Fin 3) :=
  ⟨L, .frechet, false, 1, [], [!![0, 1, 0; 1, 0, 0; 0, 0, 3]],
    ⟨none, some [!![0, 1, 0; 0, 0, 0; 0, 0, 0], !![0, 0, 0; 0, 0, 1; 0, 0, 0]], none, none, none, none⟩⟩

/-- The qubit formed by the lowest two levels. -/
noncomputable def qubit (L : Lapack (Fin 2 × Fin 2)) : LPar (Fin [(0 : Fin 3), 1].length) :=
  ⟨L, .frechet, false, 1, [], [cut [0, 1] !![0, 1, 0; 1, 0, 0; 0, 0, 3]],
    ⟨none, some [cut [0, 1] !![0, 1, 0; 0, 0, 0; 0, 0, 0], cut [0, 1] !![0, 0, 0; 0, 0, 1; 0, 0, 0]], none, none, none, none⟩⟩

def pulse : List (OpenStep (Fin 3)) := [⟨!![1, 0, 0; 0, 2, 0; 0, 0, 5], 1, [3], []⟩, ⟨!![1, 0, 0; 0, 2, 0; 0, 0, 5], 2, [4], []⟩]

theorem ladder_local (L : Lapack (Fin 3 × Fin 3)) :
    (ladder L).Local [!![0, 1, 0; 0, 0, 0; 0, 0, 0], !![0, 0, 0; 0, 0, 1; 0, 0, 0]] :=
  ⟨rfl, rfl, by simp, fun f hf => by cases hf⟩

theorem leaves (L : Lapack (Fin 3 × Fin 3)) (L' : Lapack (Fin 2 × Fin 2)) :
    LeavesOutOpen [0, 1] (ladder L) [!![0, 1, 0; 0, 0, 0; 0, 0, 0], !![0, 0, 0; 0, 0, 1; 0, 0, 0]] (qubit L') := ⟨rfl, rfl, rfl, rfl⟩

theorem stays (L : Lapack (Fin 3 × Fin 3)) :
    StaysInOpen [0, 1] (ladder L) [!![0, 1, 0; 0, 0, 0; 0, 0, 0], !![0, 0, 0; 0, 0, 1; 0, 0, 0]] pulse where
  distinct := by decide
  drift := by
    intro s hs i hi j hj
    simp only [pulse, List.mem_cons, List.not_mem_nil, or_false] at hs
    rcases hs with rfl | rfl <;> fin_cases i <;> fin_cases j <;> simp_all
  ctrl := by
    intro H hH i hi j hj
    simp only [ladder, List.mem_singleton] at hH
    subst hH
    fin_cases i <;> fin_cases j <;> simp_all
  jumps := by
    intro A hA i hi j hj
    simp only [List.mem_cons, List.not_mem_nil, or_false] at hA
    rcases hA with rfl | rfl <;> fin_cases i <;> fin_cases j <;> simp_all
  decay := by
    intro A hA i hi j hj
    simp only [List.mem_cons, List.not_mem_nil, or_false] at hA
    rcases hA with rfl | rfl <;> fin_cases i <;> fin_cases j <;> simp_all [Matrix.mul_apply, Fin.sum_univ_three]

theorem playable (L : Lapack (Fin 3 × Fin 3)) : Playable (ladder L) pulse where
  nonempty := by simp [pulse]
  cols := by simp [pulse, ladder]
  hermitian := by
    intro s hs
    simp only [pulse, List.mem_cons, List.not_mem_nil, or_false] at hs
    rcases hs with rfl | rfl <;> (ext i j; fin_cases i <;> fin_cases j <;> simp)
  durations := by simp [pulse]
  rates := by intro f hf; cases hf

/-- The ladder and the qubit have the same infidelity with respect to every operation, and the ladder does not leak. -/
example : ∃ (L : Lapack (Fin 3 × Fin 3)) (L' : Lapack (Fin 2 × Fin 2)), openLeak (ladder L) [0, 1] pulse = .ok 0 ∧
    ∀ T, ∃ c : ℝ, (openRun (ladder L) pulse >>= opCostsSup (some [0, 1]) T) = .ok c ∧
      (openRun (qubit L') (pulse.map (cutStep [0, 1])) >>= opCostsSup none T) = .ok c := by
  obtain ⟨L, -, -, hE, -⟩ := lapack_exists (Fin 3 × Fin 3)
  obtain ⟨L', -, -, hE', -⟩ := lapack_exists (Fin 2 × Fin 2)
  refine ⟨L, L', c180_leakage [0, 1] (by simp) (ladder L) _ (ladder_local L) rfl hE rfl ?_ pulse (playable L) (stays L), fun T =>
    c180_infidelity [0, 1] (ladder L) _ (qubit L') (leaves L L') (ladder_local L) rfl hE rfl rfl hE' rfl pulse (by simp [pulse]) (stays L)
      (playable L).cols T⟩
  intro H hH
  simp only [ladder, List.mem_singleton] at hH
  subst hH
  ext i j
  fin_cases i <;> fin_cases j <;> simp

/-- The ladder with the drift of two time steps. -/
noncomputable def ladder' (L : Lapack (Fin 3 × Fin 3)) : LPar (Fin 3) := { ladder L with drift := pulse.map OpenStep.H }

noncomputable def qubit' (L : Lapack (Fin 2 × Fin 2)) : LPar (Fin [(0 : Fin 3), 1].length) :=
  { qubit L with drift := (pulse.map OpenStep.H).map (cut [0, 1]) }

theorem ladder_hermitian (L : Lapack (Fin 3 × Fin 3)) : ∀ H ∈ (ladder L).ctrl, H.IsHermitian := by
  intro H hH
  simp only [ladder, List.mem_singleton] at hH
  subst hH
  ext i j
  fin_cases i <;> fin_cases j <;> simp

/-- The gradients agree as well. -/
example (V : Fin 2 → Fin 1 → ℝ) (T : Matrix (Fin 2) (Fin 2) ℂ) :
    ∃ (L : Lapack (Fin 3 × Fin 3)) (L' : Lapack (Fin 2 × Fin 2)) (g : Fin 2 → Fin 1 → ℝ),
      lindGrad (some [0, 1]) T (ladder' L) [1, 2] (rowsOf V) [] = .ok (rowsOf g) ∧
      lindGrad (n := Fin 2) none T (qubit' L') [1, 2] (rowsOf V) [] = .ok (rowsOf g) := by
  obtain ⟨L, -, -, hE, hF⟩ := lapack_exists (Fin 3 × Fin 3)
  obtain ⟨L', -, -, hE', hF'⟩ := lapack_exists (Fin 2 × Fin 2)
  have hs := stays L
  have hr : CutSystem [0, 1] (ladder' L) (qubit' L') := by
    refine ⟨hs.distinct, rfl, rfl, rfl, rfl, ?_, hs.ctrl⟩
    intro H hH
    obtain ⟨s, hs', rfl⟩ := List.mem_map.mp hH
    exact hs.drift s hs'
  have hx : LExact (ladder' L) [1, 2] := ⟨by simp [ladder', ladder], rfl, by simp, rfl, hE, hF, ladder_hermitian L⟩
  have hx' : LExact (qubit' L') [1, 2] := by
    refine ⟨by simp [qubit', qubit], rfl, by simp, rfl, hE', hF', ?_⟩
    intro H hH
    simp only [qubit', qubit, List.mem_singleton] at hH
    subst hH
    exact (ladder_hermitian L _ (by simp [ladder])).submatrix _
  have hg : GivenDiss (ladder' L) 2
      (fun _ _ => (([!![0, 1, 0; 0, 0, 0; 0, 0, 0], !![0, 0, 0; 0, 0, 1; 0, 0, 0]] : List (Matrix (Fin 3) (Fin 3) ℂ)).map dissOf).sum) :=
    .lindblad _ (by simp) none rfl rfl
  have hg' : GivenDiss (qubit' L') 2 (fun _ _ => ([cut [0, 1] !![0, 1, 0; 0, 0, 0; 0, 0, 0], cut [0, 1] !![0, 0, 0; 0, 0, 1; 0, 0, 0]].map dissOf).sum) :=
    .lindblad _ (by simp) none rfl rfl
  obtain ⟨c, g, -, -, g3, g4⟩ := c180_gradient [0, 1] (ladder' L) (qubit' L') hr [1, 2] hx hx' _ hg _ hg' (by
    intro t v
    refine ⟨[(1, !![0, 1, 0; 0, 0, 0; 0, 0, 0]), (1, !![0, 0, 0; 0, 0, 1; 0, 0, 0])], by simp, by simp, ?_⟩
    intro w hw
    simp only [List.mem_cons, List.not_mem_nil, or_false] at hw
    rcases hw with rfl | rfl
    · exact ⟨hs.jumps _ (by simp), hs.decay _ (by simp)⟩
    · exact ⟨hs.jumps _ (by simp), hs.decay _ (by simp)⟩) T V [] []
  exact ⟨L, L', g, g3, g4⟩

end Ex180

end Verif.Sim
