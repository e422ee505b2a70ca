import Verif.Cost.Fidelity

/-!
# C44, C45, C48: gradients of the entanglement infidelity
-/

namespace Verif.Cost
open Verif Verif.Operator Verif.Solver Matrix
open scoped Kronecker

section
variable {n m : Type} [Fintype n] [DecidableEq n]

/-- Specification: at `x = 0` the propagators are `ps`; propagator `t` is replaced by a differentiable function `P` with
derivative `D` at `0`, the others stay, and `fwds x` are the resulting forward propagators. -/
structure Sweep (init : Matrix n m ℂ) (ps : List (Matrix n n ℂ)) (t : Nat) (P : ℝ → Matrix n n ℂ) (D : Matrix n n ℂ)
    (fwds : ℝ → List (Matrix n m ℂ)) : Prop where
  forward : ∀ x, IsForward init (ps.set t (P x)) (fwds x)
  start : ps[t]? = some (P 0)
  deriv : MatDeriv P D 0

/-- Specification: everything a solver returns belongs to the propagators `ps`, with `nc` derivatives per step. -/
structure Trace.Of (tr : Trace n m) (init : Matrix n m ℂ) (ps : List (Matrix n n ℂ)) (nc : Nat) : Prop where
  forward : IsForward init ps tr.fwd
  reversed : IsReversed ps tr.rev
  shape : Rect tr.dP nc ps.length

/-- The derivative for control `c` in step `t`. -/
def Trace.derivAt (tr : Trace n m) (t c : Nat) : Option (Matrix n n ℂ) := tr.dP[c]?.bind fun row => row[t]?

/-- The final forward propagator as a function of the swept propagator. -/
theorem Sweep.final {init : Matrix n m ℂ} {ps : List (Matrix n n ℂ)} {t : Nat} {P : ℝ → Matrix n n ℂ} {D : Matrix n n ℂ}
    {fwds : ℝ → List (Matrix n m ℂ)} (h : Sweep init ps t P D fwds) {tr : Trace n m} {nc : Nat} (htr : tr.Of init ps nc) :
    ∃ R F, tr.rev.reverse[t + 1]? = some R ∧ tr.fwd[t]? = some F ∧ (∀ x, (fwds x).getLast? = some (R * P x * F)) ∧
      tr.fwd.getLast? = some (R * P 0 * F) ∧ MatDeriv (fun x => R * P x * F) (R * D * F) 0 := by
  have ht : t < ps.length := (List.getElem?_eq_some_iff.mp h.start).1
  obtain ⟨R, F, h1, h2, h3⟩ := final_set htr.forward htr.reversed t ht
  refine ⟨R, F, h1, h2, fun x => h3 _ _ (h.forward x), ?_, (h.deriv.const_mul R).mul_const F⟩
  refine h3 _ _ ?_
  have : ps.set t (P 0) = ps := by
    have e := (List.getElem?_eq_some_iff.mp h.start).2
    rw [← e, List.set_getElem_self]
  rw [this]
  exact htr.forward

theorem gradTable_entry {init : Matrix n m ℂ} {ps : List (Matrix n n ℂ)} {tr : Trace n m} {nc : Nat}
    (htr : tr.Of init ps nc) (hnc : 0 < nc) (f : Matrix n m ℂ → ℝ) :
    ∃ g, gradTable tr.fwd tr.dP tr.rev f = .ok g ∧ Rect g ps.length nc ∧
      ∀ t c R D F, tr.rev.reverse[t + 1]? = some R → tr.derivAt t c = some D → tr.fwd[t]? = some F →
        entry g t c = some (f (R * D * F)) :=
  gradTable_ok htr.forward htr.reversed hnc htr.shape f

theorem ps_ne {init : Matrix n m ℂ} {ps : List (Matrix n n ℂ)} {t : Nat} {P : ℝ → Matrix n n ℂ} {D : Matrix n n ℂ}
    {fwds : ℝ → List (Matrix n m ℂ)} (h : Sweep init ps t P D fwds) : t < ps.length :=
  (List.getElem?_eq_some_iff.mp h.start).1

/-! ## Derivatives of the fidelity -/

theorem hasDerivAt_norm_sq {z : ℝ → ℂ} {z' : ℂ} {x : ℝ} (h : HasDerivAt z z' x) :
    HasDerivAt (fun x => ‖z x‖ ^ 2) (2 * (star (z x) * z').re) x := by
  have h1 : HasDerivAt (fun x => z x * star (z x)) (z' * star (z x) + z x * star z') x := h.mul h.star
  have h2 : HasDerivAt (fun x => (z x * star (z x)).re) (z' * star (z x) + z x * star z').re x := by
    have := (Complex.reCLM.hasFDerivAt (x := z x * star (z x))).comp_hasDerivAt x h1
    exact this
  have e1 : (fun x => ‖z x‖ ^ 2) = fun x => (z x * star (z x)).re := by
    funext y
    rw [← Complex.normSq_eq_norm_sq]
    have := Complex.mul_conj (z y)
    rw [show (star (z y)) = (starRingEnd ℂ) (z y) from rfl, this, Complex.ofReal_re]
  rw [e1]
  refine h2.congr_deriv ?_
  simp only [Complex.add_re, Complex.mul_re, Complex.star_def, Complex.conj_re, Complex.conj_im]
  ring

omit [Fintype n] [DecidableEq n] in
theorem MatDeriv.sub' {k : Type} {F : ℝ → Matrix n n ℂ} {F' : Matrix n n ℂ} {x : ℝ} (h : MatDeriv F F' x) (f : k → n) :
    MatDeriv (fun x => (F x).submatrix f f) (F'.submatrix f f) x := fun i j => h (f i) (f j)

/-- Truncation without the map to the closest unitary. -/
theorem truncTo_eq (cl : Closest) (cs : Option (List n)) (mcu : Bool) (hm : mcu = false ∨ cs = none) (U : Matrix n n ℂ) :
    truncTo cl cs mcu U = U.submatrix (sel cs) (sel cs) := by
  cases cs with
  | none => rfl
  | some l =>
    rcases hm with rfl | h
    · rfl
    · cases h

theorem dim_pos (cs : Option (List n)) : 0 ≤ dim cs := by unfold dim; positivity

/-- Derivative of the fidelity with respect to the propagator. -/
theorem entFid_deriv (cl : Closest) (cs : Option (List n)) (mcu : Bool) (hm : mcu = false ∨ cs = none)
    (T : Matrix (CompIdx cs) (CompIdx cs) ℂ) {U : ℝ → Matrix n n ℂ} {U' : Matrix n n ℂ} {x : ℝ} (h : MatDeriv U U' x) :
    HasDerivAt (fun x => entFid cl cs T (U x) mcu)
      (2 / dim cs / dim cs * (star (truncTo cl cs false (U x) * Tᴴ).trace * (truncTo cl cs false U' * Tᴴ).trace).re) x := by
  have h1 := ((MatDeriv.sub' h (sel cs)).const_mul Tᴴ).trace
  have h2 := (hasDerivAt_norm_sq h1).div_const (dim cs) |>.div_const (dim cs)
  have e : (fun x => entFid cl cs T (U x) mcu) =
      fun x => ‖(Tᴴ * (U x).submatrix (sel cs) (sel cs)).trace‖ ^ 2 / dim cs / dim cs := by
    funext y
    unfold entFid
    rw [truncTo_eq cl cs mcu hm]
  rw [e]
  refine h2.congr_deriv ?_
  rw [truncTo_eq cl cs false (Or.inl rfl), truncTo_eq cl cs false (Or.inl rfl), Matrix.trace_mul_comm Tᴴ,
    Matrix.trace_mul_comm Tᴴ]
  ring

/-! ## C44 -/

/-- **C44** Entry `[t][c]` of the gradient of `OperationInfidelity` is the derivative of the cost with respect to
amplitude `c` of step `t`, given that `derivAt t c` is the derivative of the propagator (C32), with or without
computational states, for every initial state; C45 treats the map to the closest unitary. -/
theorem c44_gradient (cl : Closest) (cs : Option (List n)) (hcs : cs ≠ some []) (mcu : Bool) (hm : mcu = false ∨ cs = none)
    (T : Matrix (CompIdx cs) (CompIdx cs) ℂ) (init : Matrix n n ℂ) (ps : List (Matrix n n ℂ)) (hps : ps ≠ []) (nc : Nat)
    (hnc : 0 < nc) (tr : Trace n n) (htr : tr.Of init ps nc) :
    ∃ g, opGrad cl cs T mcu tr.fwd tr.dP tr.rev = .ok g ∧ Rect g ps.length nc ∧
      ∀ t c P D fwds, Sweep init ps t P D fwds → tr.derivAt t c = some D →
        ∃ (G : ℝ) (cost : ℝ → ℝ), entry g t c = some G ∧ (∀ x, opCosts cl cs T mcu (fwds x) = .ok (cost x)) ∧
          opCosts cl cs T mcu tr.fwd = .ok (cost 0) ∧ HasDerivAt cost G 0 := by
  obtain ⟨E, hE⟩ : ∃ E, tr.fwd.getLast? = some E := by
    have : tr.fwd ≠ [] := by
      intro h0
      have := htr.forward.1
      rw [h0] at this
      simp at this
    exact ⟨_, List.getLast?_eq_some_getLast this⟩
  obtain ⟨g, h1, h2, h3⟩ := gradTable_entry htr hnc fun X => 2 / dim cs / dim cs *
    (star (truncTo cl cs false E * Tᴴ).trace * (truncTo cl cs false X * Tᴴ).trace).re
  refine ⟨negTable g, ?_, rect_neg h2, fun t c P D fwds hs hD => ?_⟩
  · unfold opGrad derivEntFid
    rw [if_neg hcs, last_ok hE]
    simp only [bind, Except.bind]
    rw [h1]
    rfl
  · obtain ⟨R, F, e1, e2, e3, e4, e5⟩ := hs.final htr
    rw [hE] at e4
    simp only [Option.some.injEq] at e4
    refine ⟨_, fun x => 1 - entFid cl cs T (R * P x * F) mcu, entry_neg (h3 t c R D F e1 hD e2), fun x => ?_, ?_, ?_⟩
    · unfold opCosts
      rw [last_ok (e3 x)]; rfl
    · unfold opCosts
      rw [last_ok hE, e4]; rfl
    · have := (entFid_deriv cl cs mcu hm T e5).const_sub 1
      rw [e4]
      exact this

theorem entFidSup_deriv (cs : Option (List n)) (T : Matrix (CompIdx cs) (CompIdx cs) ℂ) {S : ℝ → Sup n} {S' : Sup n} {x : ℝ}
    (h : MatDeriv S S' x) : HasDerivAt (fun x => entFidSup cs T (S x)) (entFidSup cs T S') x := by
  have hre : ∀ {A : ℝ → ℂ} {A' : ℂ}, HasDerivAt A A' x → HasDerivAt (fun x => (A x).re) A'.re x := fun hA =>
    (Complex.reCLM.hasFDerivAt).comp_hasDerivAt x hA
  cases cs with
  | none => exact ((hre (h.const_mul _).trace).div_const _).div_const _
  | some l => exact ((hre (h.const_mul _).trace).div_const _).div_const _

/-- **C44** The same for super operators (open systems). -/
theorem c44_gradient_super_operator (cs : Option (List n)) (T : Matrix (CompIdx cs) (CompIdx cs) ℂ)
    (init : Sup n) (ps : List (Sup n)) (nc : Nat) (hnc : 0 < nc) (tr : Trace (n × n) (n × n)) (htr : tr.Of init ps nc) :
    ∃ g, opGradSup cs T tr.fwd tr.dP tr.rev = .ok g ∧ Rect g ps.length nc ∧
      ∀ t c P D fwds, Sweep init ps t P D fwds → tr.derivAt t c = some D →
        ∃ (G : ℝ) (cost : ℝ → ℝ), entry g t c = some G ∧ (∀ x, opCostsSup cs T (fwds x) = .ok (cost x)) ∧
          opCostsSup cs T tr.fwd = .ok (cost 0) ∧ HasDerivAt cost G 0 := by
  obtain ⟨g, h1, h2, h3⟩ := gradTable_entry htr hnc fun X => entFidSup cs T X
  refine ⟨negTable g, ?_, rect_neg h2, fun t c P D fwds hs hD => ?_⟩
  · unfold opGradSup derivEntFidSup
    rw [h1]
    rfl
  · obtain ⟨R, F, e1, e2, e3, e4, e5⟩ := hs.final htr
    refine ⟨_, fun x => 1 - entFidSup cs T (R * P x * F), entry_neg (h3 t c R D F e1 hD e2), fun x => ?_, ?_, ?_⟩
    · unfold opCostsSup
      rw [last_ok (e3 x)]; rfl
    · unfold opCostsSup
      rw [last_ok e4]; rfl
    · exact (entFidSup_deriv cs T e5).const_sub 1

/-! ## C48 -/

theorem derivEntFid_ok (cl : Closest) (cs : Option (List n)) (hcs : cs ≠ some [])
    (T : Matrix (CompIdx cs) (CompIdx cs) ℂ) {init : Matrix n n ℂ} {ps : List (Matrix n n ℂ)} {nc : Nat}
    (hnc : 0 < nc) {tr : Trace n n} (htr : tr.Of init ps nc) :
    ∃ g, derivEntFid cl cs T tr.fwd tr.dP tr.rev false = .ok g ∧ Rect g ps.length nc ∧
      ∀ t c P D fwds R F, Sweep init ps t P D fwds → tr.derivAt t c = some D → tr.rev.reverse[t + 1]? = some R →
        tr.fwd[t]? = some F → entry g t c = some (2 / dim cs / dim cs *
          (star (truncTo cl cs false (R * P 0 * F) * Tᴴ).trace * (truncTo cl cs false (R * D * F) * Tᴴ).trace).re) := by
  obtain ⟨E, hE⟩ : ∃ E, tr.fwd.getLast? = some E := by
    have : tr.fwd ≠ [] := by
      intro h0
      have := htr.forward.1
      rw [h0] at this
      simp at this
    exact ⟨_, List.getLast?_eq_some_getLast this⟩
  obtain ⟨g, h1, h2, h3⟩ := gradTable_entry htr hnc fun X => 2 / dim cs / dim cs *
    (star (truncTo cl cs false E * Tᴴ).trace * (truncTo cl cs false X * Tᴴ).trace).re
  refine ⟨g, ?_, h2, fun t c P D fwds R F hs hD hR hF => ?_⟩
  · unfold derivEntFid
    rw [if_neg hcs, last_ok hE]
    exact h1
  · obtain ⟨R', F', e1, e2, e3, e4, e5⟩ := hs.final htr
    rw [hR] at e1; rw [hF] at e2
    simp only [Option.some.injEq] at e1 e2
    subst e1; subst e2
    rw [h3 t c R D F hR hD hF]
    rw [hE] at e4
    simp only [Option.some.injEq] at e4
    rw [e4]

/-- Specification: the propagators of all noise traces and of the noiseless evolution under a change of one amplitude. -/
structure NoiseSweep (init : Matrix n n ℂ) (clean : Trace n n) (psC : List (Matrix n n ℂ)) (noise : List (Trace n n))
    (psN : List (List (Matrix n n ℂ))) (t c : Nat) (fwdC : ℝ → List (Matrix n n ℂ))
    (fwdN : ℝ → List (List (Matrix n n ℂ))) : Prop where
  clean_sweep : ∃ P D, Sweep init psC t P D fwdC ∧ clean.derivAt t c = some D
  count : psN.length = noise.length ∧ ∀ x, (fwdN x).length = noise.length
  noise_sweep : ∀ k (hk : k < noise.length) (ps : List (Matrix n n ℂ)), psN[k]? = some ps →
    ∃ P D, Sweep init ps t P D (fun x => (fwdN x).getD k []) ∧ noise[k].derivAt t c = some D

theorem mean_hasDerivAt {l : List (ℝ → ℝ)} {d : List ℝ} {x : ℝ} (hl : l.length = d.length)
    (h : ∀ (k : Nat) (f : ℝ → ℝ) (a : ℝ), l[k]? = some f → d[k]? = some a → HasDerivAt f a x) :
    HasDerivAt (fun y => mean (l.map fun f => f y)) (mean d) x := by
  unfold mean
  simp only [List.length_map, ← hl]
  refine HasDerivAt.div_const ?_ _
  induction l generalizing d with
  | nil =>
    have : d = [] := List.length_eq_zero_iff.mp hl.symm
    subst this
    simpa using hasDerivAt_const x (0 : ℝ)
  | cons f l ih =>
    cases d with
    | nil => simp at hl
    | cons a d =>
      simp only [List.map_cons, List.sum_cons]
      exact (h 0 f a rfl rfl).add (ih (by simpa using hl) fun k f a hf ha => h (k + 1) f a hf ha)

theorem addTable_rect {g h : List (List ℝ)} {a b : Nat} (hg : Rect g a b) (hh : Rect h a b) :
    addTable g h = .ok (List.zipWith (List.zipWith (· + ·)) g h) := by
  unfold addTable
  rw [if_pos]
  refine List.ext_getElem (by simp [hg.1, hh.1]) fun i h1 h2 => ?_
  simp only [List.getElem_map]
  rw [hg.2 _ (List.getElem_mem _), hh.2 _ (List.getElem_mem _)]

theorem entry_add {g h : List (List ℝ)} {t c : Nat} {x y : ℝ} (hg : entry g t c = some x) (hh : entry h t c = some y) :
    entry (List.zipWith (List.zipWith (· + ·)) g h) t c = some (x + y) := by
  unfold entry at *
  obtain ⟨r1, e1, e2⟩ := Option.bind_eq_some_iff.mp hg
  obtain ⟨r2, e3, e4⟩ := Option.bind_eq_some_iff.mp hh
  simp [List.getElem?_zipWith, e1, e2, e3, e4]

theorem entry_getD {g : List (List ℝ)} {t c : Nat} {x : ℝ} (h : entry g t c = some x) : (g.getD t []).getD c 0 = x := by
  unfold entry at h
  obtain ⟨r, e1, e2⟩ := Option.bind_eq_some_iff.mp h
  simp [List.getD_eq_getElem?_getD, e1, e2]

theorem entry_meanTable (nt nc : Nat) (l : List (List (List ℝ))) {t c : Nat} (ht : t < nt) (hc : c < nc) :
    entry (meanTable nt nc l) t c = some (mean (l.map fun a => (a.getD t []).getD c 0)) := by
  unfold entry meanTable
  simp [List.getElem?_range ht, List.getElem?_range hc]

theorem rect_meanTable (nt nc : Nat) (l : List (List (List ℝ))) : Rect (meanTable nt nc l) nt nc := by
  refine ⟨by simp [meanTable], fun row hrow => ?_⟩
  simp only [meanTable, List.mem_map] at hrow
  obtain ⟨t, -, rfl⟩ := hrow
  simp

/-- The fidelity of two propagators that both change. -/
theorem entFid_deriv₂ (cl : Closest) (cs : Option (List n)) (mcu : Bool) (hm : mcu = false ∨ cs = none)
    {U V : ℝ → Matrix n n ℂ} {U' V' : Matrix n n ℂ} {x : ℝ} (hU : MatDeriv U U' x) (hV : MatDeriv V V' x) :
    HasDerivAt (fun x => entFid cl cs (truncTo cl cs mcu (V x)) (U x) mcu)
      (2 / dim cs / dim cs * (star (truncTo cl cs false (U x) * (truncTo cl cs mcu (V x))ᴴ).trace *
          (truncTo cl cs false U' * (truncTo cl cs mcu (V x))ᴴ).trace).re +
        2 / dim cs / dim cs * (star (truncTo cl cs false (V x) * (truncTo cl cs mcu (U x))ᴴ).trace *
          (truncTo cl cs false V' * (truncTo cl cs mcu (U x))ᴴ).trace).re) x := by
  set s := sel cs with hs
  have h1 := (((MatDeriv.sub' hV s).conjTranspose).mul (MatDeriv.sub' hU s)).trace
  have h2 := ((hasDerivAt_norm_sq h1).div_const (dim cs)).div_const (dim cs)
  have e : (fun x => entFid cl cs (truncTo cl cs mcu (V x)) (U x) mcu) =
      fun x => ‖(((V x).submatrix s s)ᴴ * (U x).submatrix s s).trace‖ ^ 2 / dim cs / dim cs := by
    funext y
    unfold entFid
    rw [truncTo_eq cl cs mcu hm, truncTo_eq cl cs mcu hm]
  rw [e]
  refine h2.congr_deriv ?_
  simp only [truncTo_eq cl cs mcu hm, truncTo_eq cl cs false (Or.inl rfl), ← hs]
  generalize (U x).submatrix s s = A
  generalize (V x).submatrix s s = B
  generalize U'.submatrix s s = A'
  generalize V'.submatrix s s = B'
  have k1 : (Bᴴ * A).trace = (A * Bᴴ).trace := Matrix.trace_mul_comm _ _
  have k2 : (B * Aᴴ).trace = star (A * Bᴴ).trace := by
    rw [← Matrix.trace_conjTranspose, Matrix.conjTranspose_mul, Matrix.conjTranspose_conjTranspose]
  have k3 : (B'ᴴ * A).trace = star (B' * Aᴴ).trace := by
    rw [← Matrix.trace_conjTranspose, Matrix.conjTranspose_mul, Matrix.conjTranspose_conjTranspose,
      Matrix.trace_mul_comm]
  have k4 : (Bᴴ * A').trace = (A' * Bᴴ).trace := Matrix.trace_mul_comm _ _
  rw [Matrix.trace_add, k1, k2, k3, k4]
  simp only [star_star, mul_add, Complex.add_re, Complex.mul_re, Complex.star_def, Complex.conj_re, Complex.conj_im]
  ring

/-- **C48** `OperationNoiseInfidelity.grad` is the derivative of its costs for both settings of
`neglect_systematic_errors`, for every number of traces (without the map to the closest unitary, cf. `c48_violated`). -/
theorem c48_gradient_partial (cl : Closest) (cs : Option (List n)) (hcs : cs ≠ some []) (mcu nse : Bool)
    (hm : mcu = false ∨ cs = none) (T : Matrix (CompIdx cs) (CompIdx cs) ℂ) (init : Matrix n n ℂ)
    (nt nc : Nat) (hnc : 0 < nc) (clean : Trace n n) (psC : List (Matrix n n ℂ))
    (hC : clean.Of init psC nc) (hCl : psC.length = nt) (noise : List (Trace n n)) (psN : List (List (Matrix n n ℂ)))
    (hN : ∀ k (hk : k < noise.length) (ps : List (Matrix n n ℂ)), psN[k]? = some ps → noise[k].Of init ps nc ∧ ps.length = nt) :
    psN.length = noise.length → ∃ g, noiseGrad cl cs T mcu nse nt nc clean noise = .ok g ∧ Rect g nt nc ∧
      ∀ t c fwdC fwdN, NoiseSweep init clean psC noise psN t c fwdC fwdN →
        ∃ (G : ℝ) (cost : ℝ → ℝ), entry g t c = some G ∧
          (∀ x, noiseCosts cl cs T mcu nse (fwdC x) (fwdN x) = .ok (cost x)) ∧ HasDerivAt cost G 0 := by
  intro hlen
  obtain ⟨EC, hEC⟩ : ∃ E, clean.fwd.getLast? = some E := by
    have : clean.fwd ≠ [] := by
      intro h0
      have := hC.forward.1
      rw [h0] at this
      simp at this
    exact ⟨_, List.getLast?_eq_some_getLast this⟩
  set target := if nse then truncTo cl cs mcu EC else T with htarget
  have htar : effTarget cl cs T mcu nse clean.fwd = .ok target := by
    unfold effTarget
    cases nse
    · rfl
    · simp only [if_true, last_ok hEC, htarget]; rfl
  -- the table of one trace
  set tab : Trace n n → Except PyErr (List (List ℝ)) := fun tr => do
    let temp ← derivEntFid cl cs target tr.fwd tr.dP tr.rev false
    if nse then do
      let final ← last tr.fwd
      let temp' ← derivEntFid cl cs (truncTo cl cs mcu final) clean.fwd clean.dP clean.rev false
      addTable temp temp'
    else pure temp with htab
  have hfin : ∀ k (hk : k < noise.length), ∃ E, (noise[k]).fwd.getLast? = some E := by
    intro k hk
    have hk' : k < psN.length := by omega
    obtain ⟨h1, h2⟩ := hN k hk _ (List.getElem?_eq_getElem hk')
    have : noise[k].fwd ≠ [] := by
      intro h0
      have := h1.forward.1
      rw [h0] at this
      simp at this
    exact ⟨_, List.getLast?_eq_some_getLast this⟩
  have htabok : ∀ tr ∈ noise, ∃ a, tab tr = .ok a := by
    intro tr htr
    obtain ⟨k, hk, rfl⟩ := List.mem_iff_getElem.mp htr
    have hk' : k < psN.length := by omega
    obtain ⟨h1, h2⟩ := hN k hk _ (List.getElem?_eq_getElem hk')
    obtain ⟨g1, e1, k1, -⟩ := derivEntFid_ok cl cs hcs target hnc h1
    rw [htab]
    simp only [e1, bind, Except.bind]
    cases nse
    · exact ⟨_, rfl⟩
    · obtain ⟨E, hE⟩ := hfin k hk
      obtain ⟨g2, e2, k2, -⟩ := derivEntFid_ok cl cs hcs (truncTo cl cs mcu E) hnc hC
      simp only [if_true, last_ok hE, e2]
      exact ⟨_, addTable_rect (h2 ▸ k1) (hCl ▸ k2)⟩
  obtain ⟨l, hl1, hl2, hl3⟩ := allOk_of_ok noise tab htabok
  refine ⟨meanTable nt nc (l.map negTable), ?_, rect_meanTable _ _ _, fun t c fwdC fwdN hs => ?_⟩
  · unfold noiseGrad
    rw [htar]
    simp only [bind, Except.bind]
    simp only [htab, bind, Except.bind] at hl1
    rw [hl1]
    rfl
  · obtain ⟨⟨PC, DC, hsC, hDC⟩, ⟨-, hcount⟩, hsN⟩ := hs
    obtain ⟨RC, FC, c1, c2, c3, c4, c5⟩ := hsC.final hC
    have hEC' : EC = RC * PC 0 * FC := by
      rw [hEC] at c4; exact Option.some.inj c4
    have ht : t < nt := hCl ▸ ps_ne hsC
    have hc : c < nc := by
      obtain ⟨row, hrow, -⟩ := Option.bind_eq_some_iff.mp hDC
      rw [← hC.shape.1]
      exact (List.getElem?_eq_some_iff.mp hrow).1
    -- the cost of one trace
    have hone : ∀ k (hk : k < noise.length), ∃ (U : ℝ → Matrix n n ℂ) (G : ℝ) (a : List (List ℝ)),
        (∀ x, ((fwdN x).getD k []).getLast? = some (U x)) ∧ l[k]? = some a ∧ entry a t c = some G ∧
        HasDerivAt (fun x => 1 - entFid cl cs (if nse then truncTo cl cs mcu (RC * PC x * FC) else T) (U x) mcu) (-G) 0 := by
      intro k hk
      have hk' : k < psN.length := by omega
      obtain ⟨h1, h2⟩ := hN k hk _ (List.getElem?_eq_getElem hk')
      obtain ⟨P, D, hsk, hDk⟩ := hsN k hk _ (List.getElem?_eq_getElem hk')
      obtain ⟨R, F, e1, e2, e3, e4, e5⟩ := hsk.final h1
      obtain ⟨a, ha, hla⟩ := hl3 k _ (List.getElem?_eq_getElem hk)
      obtain ⟨g1, f1, q1, f2⟩ := derivEntFid_ok cl cs hcs target hnc h1
      have f3 := f2 t c P D _ R F hsk hDk e1 e2
      rw [htab] at ha
      simp only [f1, bind, Except.bind] at ha
      cases nse with
      | false =>
        simp only [Bool.false_eq_true, if_false, pure, Except.pure, Except.ok.injEq] at ha htarget
        subst ha
        refine ⟨fun x => R * P x * F, _, _, e3, hla, f3, ?_⟩
        have := (entFid_deriv cl cs mcu hm T e5).const_sub 1
        rw [htarget]
        exact this
      | true =>
        obtain ⟨g2, f4, q2, f5⟩ := derivEntFid_ok cl cs hcs (truncTo cl cs mcu (R * P 0 * F)) hnc hC
        have f6 := f5 t c PC DC _ RC FC hsC hDC c1 c2
        rw [h2] at q1
        rw [hCl] at q2
        simp only [if_true, last_ok e4, f4, addTable_rect q1 q2, pure, Except.pure, Except.ok.injEq] at ha htarget
        subst ha
        refine ⟨fun x => R * P x * F, _, _, e3, hla, entry_add f3 f6, ?_⟩
        have := (entFid_deriv₂ cl cs mcu hm e5 c5).const_sub 1
        rw [htarget, hEC']
        exact this
    choose U G a hU ha hG hder using hone
    refine ⟨_, fun x => mean ((List.finRange noise.length).map fun (k : Fin noise.length) =>
      1 - entFid cl cs (if nse then truncTo cl cs mcu (RC * PC x * FC) else T) (U k k.2 x) mcu),
      entry_meanTable _ _ _ ht hc, fun x => ?_, ?_⟩
    · unfold noiseCosts
      have : effTarget cl cs T mcu nse (fwdC x) = .ok (if nse then truncTo cl cs mcu (RC * PC x * FC) else T) := by
        unfold effTarget
        cases nse
        · rfl
        · simp only [if_true, last_ok (c3 x)]; rfl
      rw [this]
      simp only [bind, Except.bind]
      have e : (fwdN x) = (List.finRange noise.length).map fun (k : Fin noise.length) => (fwdN x).getD k [] := by
        refine List.ext_getElem (by simp [hcount]) fun i hi _ => ?_
        rw [List.getElem_map, List.getElem_finRange]
        exact (List.getD_eq_getElem _ _ hi).symm
      rw [e, List.map_map, allOk_map (List.finRange noise.length) _ (fun (k : Fin noise.length) =>
        1 - entFid cl cs (if nse then truncTo cl cs mcu (RC * PC x * FC) else T) (U k k.2 x) mcu)]
      · rfl
      · intro k _
        simp only [Function.comp, last_ok (hU k k.2 x)]
        rfl
    · have hmean := mean_hasDerivAt (x := 0) (l := (List.finRange noise.length).map fun (k : Fin noise.length) => fun x =>
        1 - entFid cl cs (if nse then truncTo cl cs mcu (RC * PC x * FC) else T) (U k k.2 x) mcu)
        (d := (l.map negTable).map fun a => (a.getD t []).getD c 0) (by simp [hl2]) (by
          intro k f b hf hb
          have hk : k < noise.length := by
            have := (List.getElem?_eq_some_iff.mp hf).1
            simpa using this
          simp only [List.getElem?_map, List.getElem?_eq_getElem (show k < (List.finRange noise.length).length by simpa using hk),
            List.getElem_finRange, Option.map_some, Option.some.injEq] at hf
          simp only [List.getElem?_map, ha k hk, Option.map_some, Option.some.injEq] at hb
          rw [entry_getD (entry_neg (hG k hk))] at hb
          subst hf hb
          exact hder k hk)
      simp only [List.map_map] at hmean ⊢
      exact hmean

end
end Verif.Cost
