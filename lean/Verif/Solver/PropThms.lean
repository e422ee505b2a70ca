import Mathlib.Tactic.LinearCombination
import Mathlib.Tactic.FinCases
import Verif.Solver.CacheThms

/-!
# C27, C28, C32, C41: propagators, reversed propagators and derivatives of the Schroedinger solver
-/

namespace Verif.Solver
open Verif Verif.Operator Matrix

section
variable {n m : Type} [Fintype n] [DecidableEq n]

/-! ## C27 -/

/-- Specification: `f` lists the initial state propagated by the first `i` steps. -/
def IsForward (init : Matrix n m ℂ) (ps : List (Matrix n n ℂ)) (f : List (Matrix n m ℂ)) : Prop :=
  f.length = ps.length + 1 ∧ f[0]? = some init ∧
    ∀ i (hi : i < ps.length), ∃ F, f[i]? = some F ∧ f[i + 1]? = some (ps[i] * F)

/-- Specification: `r` lists the products of the last `i` propagators, the latest one leftmost. -/
def IsReversed (ps : List (Matrix n n ℂ)) (r : List (Matrix n n ℂ)) : Prop :=
  r.length = ps.length + 1 ∧ r[0]? = some 1 ∧
    ∀ i (hi : i < ps.length), ∃ R, r[i]? = some R ∧ r[i + 1]? = some (R * ps[ps.length - 1 - i])

theorem fwdLoop_isForward (ps : List (Matrix n n ℂ)) (init : Matrix n m ℂ) :
    IsForward init ps (init :: (fwdLoop (ps.map some) init).1) := by
  induction ps generalizing init with
  | nil => exact ⟨rfl, rfl, fun i hi => absurd hi (by simp)⟩
  | cons P ps ih =>
    obtain ⟨h1, h2, h3⟩ := ih (P * init)
    refine ⟨by simpa [fwdLoop] using h1, rfl, fun i hi => ?_⟩
    cases i with
    | zero => exact ⟨init, rfl, by simp [fwdLoop]⟩
    | succ i =>
      obtain ⟨F, hF, hF'⟩ := h3 i (by simpa using hi)
      exact ⟨F, by simpa [fwdLoop] using hF, by simpa [fwdLoop] using hF'⟩

theorem revLoop_spec (ps : List (Matrix n n ℂ)) (s : Matrix n n ℂ) :
    ∀ i (hi : i < ps.length), ∃ R, (s :: (revLoop (ps.map some) s).1)[i]? = some R ∧
      (s :: (revLoop (ps.map some) s).1)[i + 1]? = some (R * ps[i]) := by
  induction ps generalizing s with
  | nil => exact fun i hi => absurd hi (by simp)
  | cons P ps ih =>
    intro i hi
    cases i with
    | zero => exact ⟨s, rfl, by simp [revLoop]⟩
    | succ i =>
      obtain ⟨R, hR, hR'⟩ := ih (s * P) i (by simpa using hi)
      exact ⟨R, by simpa [revLoop] using hR, by simpa [revLoop] using hR'⟩

theorem revOf_isReversed (ps : List (Matrix n n ℂ)) (hps : ps ≠ []) :
    ∃ r, revOf (ps.map some) = .ok r ∧ IsReversed ps r := by
  cases ps with
  | nil => exact absurd rfl hps
  | cons P ps =>
    have hrev : (some P :: ps.map some).reverse = ((P :: ps).reverse).map some := by simp
    refine ⟨1 :: (revLoop (((P :: ps).reverse).map some) 1).1, ?_, ?_, rfl, fun i hi => ?_⟩
    · simp only [List.map_cons, revOf, hrev, (revLoop_some _ _).1, orErr]
    · rw [List.length_cons, (revLoop_some ((P :: ps).reverse) 1).2, List.length_reverse]
    · obtain ⟨R, h1, h2⟩ := revLoop_spec ((P :: ps).reverse) 1 i (by simpa using hi)
      refine ⟨R, h1, ?_⟩
      rw [h2, List.getElem_reverse]

/-- The product law: from the two specifications alone. -/
theorem reversed_mul_forward {init : Matrix n m ℂ} {ps : List (Matrix n n ℂ)} {f : List (Matrix n m ℂ)}
    {r : List (Matrix n n ℂ)} (hf : IsForward init ps f) (hr : IsReversed ps r) (i : Nat) (hi : i ≤ ps.length) :
    ∃ R F E, r[ps.length - i]? = some R ∧ f[i]? = some F ∧ f[ps.length]? = some E ∧ R * F = E := by
  obtain ⟨hf1, hf2, hf3⟩ := hf
  obtain ⟨hr1, hr2, hr3⟩ := hr
  suffices h : ∀ k, k ≤ ps.length → ∃ R F E, r[k]? = some R ∧ f[ps.length - k]? = some F ∧
      f[ps.length]? = some E ∧ R * F = E by
    obtain ⟨R, F, E, h1, h2, h3, h4⟩ := h (ps.length - i) (by omega)
    exact ⟨R, F, E, h1, by rwa [show ps.length - (ps.length - i) = i by omega] at h2, h3, h4⟩
  intro k
  induction k with
  | zero =>
    intro _
    have : ps.length < f.length := by omega
    exact ⟨1, f[ps.length], f[ps.length], hr2, by simp [List.getElem?_eq_getElem this],
      List.getElem?_eq_getElem this, Matrix.one_mul _⟩
  | succ k ih =>
    intro hk
    obtain ⟨R, F, E, h1, h2, h3, h4⟩ := ih (by omega)
    obtain ⟨R', hR', hR''⟩ := hr3 k (by omega)
    obtain ⟨F', hF', hF''⟩ := hf3 (ps.length - (k + 1)) (by omega)
    rw [h1] at hR'
    simp only [Option.some.injEq] at hR'
    subst hR'
    rw [show ps.length - (k + 1) + 1 = ps.length - k by omega, h2] at hF''
    simp only [Option.some.injEq] at hF''
    refine ⟨_, F', E, hR'', hF', h3, ?_⟩
    rw [← h4, hF'', Matrix.mul_assoc]
    congr 3
    omega

/-- **C27** If the propagators of a new solver with a pulse set can be read, there is one per transferred time step,
the forward and reversed propagators can be read and obey the recursions, and reversed times forward is the final
forward propagator. (By C29 the same holds after every history.) -/
theorem c27_propagation (cfg : Cfg n m) (τ : List ℝ) (y : Pulse)
    (hset : (setPars cfg y (construct cfg τ)).1 = none) (ps : List (Matrix n n ℂ)) (hps : ps ≠ [])
    (hread : (readProps cfg (fresh cfg τ y)).1 = .ok (ps.map some)) :
    ps.length = (cfg.xTimes τ).length ∧
    ∃ f r, (readFwd cfg (fresh cfg τ y)).1 = .ok f ∧ (readRev cfg (fresh cfg τ y)).1 = .ok r ∧
      IsForward cfg.init ps f ∧ IsReversed ps r ∧
      ∀ i ≤ ps.length, ∃ R F E, r[ps.length - i]? = some R ∧ f[i]? = some F ∧ f[ps.length]? = some E ∧ R * F = E := by
  obtain ⟨u, hu⟩ := (setPars_none_iff cfg τ y).mp hset
  obtain ⟨v1, v2, v3⟩ := fresh_values cfg τ y u hu
  rw [v1, specProps] at hread
  rw [v2, specFwd, v3, specRev]
  have hlen : (cells cfg (cfg.xTimes τ) u).1.length = (cfg.xTimes τ).length := by
    unfold cells cellsD cellsP
    split <;> simp [fill_length]
  cases he : (cells cfg (cfg.xTimes τ) u).2 with
  | some e => rw [he] at hread; simp [orErr] at hread
  | none =>
    rw [he] at hread
    simp only [orErr, Except.ok.injEq] at hread
    rw [hread] at hlen
    simp only [hread, orErr, (fwdLoop_some ps cfg.init).1]
    obtain ⟨r, hr, hr'⟩ := revOf_isReversed ps hps
    refine ⟨by rw [← hlen]; simp, _, r, rfl, hr, fwdLoop_isForward ps cfg.init, hr', fun i hi => ?_⟩
    exact reversed_mul_forward (fwdLoop_isForward ps cfg.init) hr' i hi

/-- An accepted pulse leads to amplitudes of the right shape. -/
theorem ampsOf_shape (cfg : Cfg n m) (τ : List ℝ) (y u : Pulse) (h : ampsOf cfg τ y = some u) :
    u.length = (cfg.xTimes τ).length ∧ ∀ row ∈ u, row.length = cfg.nCtrl := by
  unfold ampsOf at h
  split at h
  · simp at h
  · split at h
    · simp at h
    · rename_i r _
      by_cases hc : r.ndim = 2 ∧ r.rows.length = (cfg.xTimes τ).length ∧ r.cols = cfg.nCtrl
      · rw [if_pos hc] at h
        simp only [Option.some.injEq] at h
        subst h
        exact ⟨hc.2.1, fun row hrow => (r.rect hc.1 row hrow).trans hc.2.2⟩
      · rw [if_neg hc] at h; simp at h

/-- Parameters of a Schroedinger solver. -/
structure SPar (n m : Type) where
  L : Lapack n
  method : Method
  skew : Bool
  calcDeriv : Bool
  approx : ApproxMethod
  init : Matrix n m ℂ
  drift : List (Matrix n n ℂ)
  ctrl : List (Matrix n n ℂ)
  tf : List ℝ → Pulse → Except PyErr Pulse
  xTimes : List ℝ → List ℝ
  amp : Pulse → Except PyErr Raw

def SPar.cfg (p : SPar n m) : Cfg n m :=
  schroedCfg p.L p.method p.skew p.calcDeriv p.approx p.init p.drift p.ctrl p.tf p.xTimes p.amp

/-- What the constructor guarantees: at least one control, one drift operator per transferred time step. -/
def SPar.Valid (p : SPar n m) (τ : List ℝ) : Prop :=
  p.ctrl ≠ [] ∧ p.drift.length = (p.xTimes τ).length ∧ p.method ≠ .other

theorem SPar.dirs_ok (p : SPar n m) (hc : p.ctrl ≠ []) (times : List ℝ) (u : Pulse) (t : Nat) (ht : t < times.length) :
    ∃ Ds, (p.cfg.dirs times u)[t]? = some Ds ∧ Ds ≠ [] ∧ p.cfg.nCtrl ≤ Ds.length :=
  ⟨p.ctrl.map fun H => (-Complex.I) • H, by
    show (List.replicate times.length _)[t]? = _
    rw [List.getElem?_replicate, if_pos ht], by simpa using hc, by rw [List.length_map]; exact le_refl p.ctrl.length⟩

/-- The propagators of a Schroedinger solver. -/
theorem SPar.cells_eq (p : SPar n m) (τ : List ℝ) (hv : p.Valid τ) (y u : Pulse) (hu : ampsOf p.cfg τ y = some u) :
    cells p.cfg (p.xTimes τ) u = (((List.range (p.xTimes τ).length).map fun t =>
      propOf p.cfg ((-Complex.I) • hamiltonian (p.drift.getD t 0) p.ctrl (u.getD t [])) ((p.xTimes τ).getD t 0)).map some,
      none) := by
  obtain ⟨hlen, hrow⟩ := ampsOf_shape p.cfg τ y u hu
  have hlen' : u.length = (p.xTimes τ).length := hlen
  rw [cells_ok p.cfg hv.2.2 (p.xTimes τ) u]
  · refine Prod.ext (congrArg (List.map some) (List.map_congr_left fun t ht => ?_)) rfl
    have ht' := List.mem_range.mp ht
    have h1 : t < p.drift.length := by rw [hv.2.1]; exact ht'
    have h2 : t < u.length := by omega
    have hG : (p.cfg.gens u)[t]? = some ((-Complex.I) • hamiltonian (p.drift.getD t 0) p.ctrl (u.getD t [])) := by
      refine schroedGens_getElem p.drift p.ctrl u t _ _ ?_ ?_ ?_
      · rw [List.getElem?_eq_getElem h1, List.getD_eq_getElem _ _ h1]
      · rw [List.getElem?_eq_getElem h2, List.getD_eq_getElem _ _ h2]
      · rw [List.getD_eq_getElem _ _ h2]
        exact hrow _ (List.getElem_mem h2)
    rw [List.getD_eq_getElem?_getD, hG]
    rfl
  · show _ ≤ (schroedGens p.drift p.ctrl u).length
    rw [schroedGens_length, hv.2.1]
  · exact p.dirs_ok hv.1 _ _

/-- For a Schroedinger solver as accepted by the constructor the propagators can always be read: propagator `t` is the
exponential of `-i (H_drift[t] + Σ_c u[t][c] H_c)` for the time of step `t`. -/
theorem c27_readable (p : SPar n m) (τ : List ℝ) (hv : p.Valid τ) (y u : Pulse)
    (hu : ampsOf p.cfg τ y = some u) :
    ∃ ps : List (Matrix n n ℂ), (readProps p.cfg (fresh p.cfg τ y)).1 = .ok (ps.map some) ∧
      ps.length = (p.xTimes τ).length ∧
      ∀ (t : Nat) (H₀ : Matrix n n ℂ) (row : List ℝ) (σ : ℝ), p.drift[t]? = some H₀ → u[t]? = some row → (p.xTimes τ)[t]? = some σ →
        ps[t]? = some (propOf p.cfg ((-Complex.I) • hamiltonian H₀ p.ctrl row) σ) := by
  rw [(fresh_values p.cfg τ y u hu).1, specProps, show p.cfg.xTimes τ = p.xTimes τ from rfl, p.cells_eq τ hv y u hu]
  refine ⟨_, rfl, by simp, fun t H₀ row σ h1 h2 h3 => ?_⟩
  have ht : t < (p.xTimes τ).length := (List.getElem?_eq_some_iff.mp h3).1
  simp [List.getElem?_range ht, List.getD_eq_getElem?_getD, h1, h2, h3]

/-! ## C79: drift lists with at least one operator -/

/-- **C79** Drift lists with at least one operator: the constructor accepts exactly a single operator and one operator per
step; then propagator `t` is the exponential with the single operator or operator `t` of the list. Missing: the empty list,
for which the claim fails (`c79_violated`). -/
theorem c79_nonempty_partial (p : SPar n m) (h : List (Matrix n n ℂ)) (h0 : h ≠ []) (τ : List ℝ) (hc : p.ctrl ≠ [])
    (hmeth : p.method ≠ .other) (y u : Pulse) (hu : ampsOf p.cfg τ y = some u) :
    (h.length ≠ 1 → h.length ≠ (p.xTimes τ).length → constructDrift h (p.xTimes τ).length = .error .valueError) ∧
    (h.length = 1 ∨ h.length = (p.xTimes τ).length → constructDrift h (p.xTimes τ).length = .ok p.drift →
      ∃ ps : List (Matrix n n ℂ), (readProps p.cfg (fresh p.cfg τ y)).1 = .ok (ps.map some) ∧ ps.length = (p.xTimes τ).length ∧
        ∀ (t : Nat) (H₀ : Matrix n n ℂ) (row : List ℝ) (σ : ℝ), h[if h.length = 1 then 0 else t]? = some H₀ → u[t]? = some row →
          (p.xTimes τ)[t]? = some σ → ps[t]? = some (propOf p.cfg ((-Complex.I) • hamiltonian H₀ p.ctrl row) σ)) ∧
    (h.length = 1 ∨ h.length = (p.xTimes τ).length → ∃ d, constructDrift h (p.xTimes τ).length = .ok d) := by
  have h0' : h.length ≠ 0 := fun e => h0 (List.length_eq_zero_iff.mp e)
  refine ⟨fun h1 h2 => ?_, fun h1 h2 => ?_, fun h1 => ?_⟩
  · match h, h1, h2, h0' with
    | [], _, _, h0' => simp at h0'
    | [H], h1, _, _ => simp at h1
    | a :: b :: l, _, h2, h0' => rw [constructDrift, if_neg (by rintro (e | e); exact h2 e; exact h0' e)]; simp
  · have key : p.drift.length = (p.xTimes τ).length ∧ ∀ t, t < (p.xTimes τ).length →
        p.drift[t]? = h[if h.length = 1 then 0 else t]? := by
      match h, h1, h2, h0' with
      | [], _, _, h0' => simp at h0'
      | [H], _, h2, _ =>
        simp only [constructDrift, Except.ok.injEq] at h2
        rw [← h2]
        refine ⟨by simp, fun t ht => by simp [List.getElem?_replicate, ht]⟩
      | a :: b :: l, h1, h2, _ =>
        have e : (a :: b :: l).length = (p.xTimes τ).length := by
          rcases h1 with h1 | h1
          · simp at h1
          · exact h1
        rw [constructDrift, if_pos (Or.inl e)] at h2
        · simp only [Except.ok.injEq] at h2
          rw [← h2]
          exact ⟨e, fun t _ => by simp⟩
        · simp
    obtain ⟨ps, e1, e2, e3⟩ := c27_readable p τ ⟨hc, key.1, hmeth⟩ y u hu
    refine ⟨ps, e1, e2, fun t H₀ row σ g1 g2 g3 => e3 t H₀ row σ ?_ g2 g3⟩
    rw [key.2 t (List.getElem?_eq_some_iff.mp g3).1, g1]
  · match h, h1, h0' with
    | [], _, h0' => simp at h0'
    | [H], _, _ => exact ⟨_, rfl⟩
    | a :: b :: l, h1, _ =>
      have e : (a :: b :: l).length = (p.xTimes τ).length := by
        rcases h1 with h1 | h1
        · simp at h1
        · exact h1
      exact ⟨_, by rw [constructDrift, if_pos (Or.inl e)]; simp⟩

/-! ## C28 -/

theorem propOf_unitary (p : SPar n m)
    (hmeth : (p.method = .frechet ∧ p.L.ExpmOk) ∨ (p.method = .spectral ∧ p.skew = true ∧ p.L.EighOk))
    (H : Matrix n n ℂ) (hH : H.IsHermitian) (σ : ℝ) :
    propOf p.cfg ((-Complex.I) • H) σ ∈ Matrix.unitaryGroup n ℂ := by
  have hsk : ((σ : ℂ) • ((-Complex.I) • H))ᴴ = -((σ : ℂ) • ((-Complex.I) • H)) := by
    rw [Matrix.conjTranspose_smul, skew_of_hermitian hH]; simp
  rcases hmeth with ⟨hm, hL⟩ | ⟨hm, hs, hL⟩
  · have : propOf p.cfg ((-Complex.I) • H) σ = p.L.expm ((σ : ℂ) • ((-Complex.I) • H)) := by
      unfold propOf dexpProp expProp
      have : p.cfg.method = .frechet := hm
      rw [this]
      split <;> rfl
    rw [this, hL]
    exact exp_skew_unitary hsk
  · have hsp := c19_exponential p.L hL _ (skew_of_hermitian hH) (σ : ℂ)
    have : propOf p.cfg ((-Complex.I) • H) σ = NormedSpace.exp ((σ : ℂ) • ((-Complex.I) • H)) := by
      unfold propOf dexpProp expProp
      have h1 : p.cfg.method = .spectral := hm
      have h2 : p.cfg.skew = true := hs
      have h3 : p.cfg.L = p.L := rfl
      rw [h1, h2, h3, hsp]
      simp only [Operator.exp, Except.ok.injEq] at hsp
      split
      · exact hsp
      · rfl
    rw [this]
    exact exp_skew_unitary hsk

/-- **C28** For Hermitian drift and control Hamiltonians all propagators and reversed propagators are unitary and
the forward propagation preserves inner products of the initial states. -/
theorem c28_unitary (p : SPar n m) (τ : List ℝ) (hv : p.Valid τ)
    (hmeth : (p.method = .frechet ∧ p.L.ExpmOk) ∨ (p.method = .spectral ∧ p.skew = true ∧ p.L.EighOk))
    (hd : ∀ H ∈ p.drift, H.IsHermitian) (hc : ∀ H ∈ p.ctrl, H.IsHermitian) (y : Pulse)
    (hset : (setPars p.cfg y (construct p.cfg τ)).1 = none) (hτ : (p.xTimes τ) ≠ []) :
    ∃ (ps : List (Matrix n n ℂ)) (f : List (Matrix n m ℂ)) (r : List (Matrix n n ℂ)),
      (readProps p.cfg (fresh p.cfg τ y)).1 = .ok (ps.map some) ∧
      (readFwd p.cfg (fresh p.cfg τ y)).1 = .ok f ∧ (readRev p.cfg (fresh p.cfg τ y)).1 = .ok r ∧
      ps.length = (p.xTimes τ).length ∧ f.length = ps.length + 1 ∧ r.length = ps.length + 1 ∧
      (∀ P ∈ ps, P ∈ Matrix.unitaryGroup n ℂ) ∧ (∀ R ∈ r, R ∈ Matrix.unitaryGroup n ℂ) ∧
      ∀ F ∈ f, Fᴴ * F = p.initᴴ * p.init := by
  obtain ⟨u, hu⟩ := (setPars_none_iff p.cfg τ y).mp hset
  obtain ⟨ps, hps, hlen, hval⟩ := c27_readable p τ hv y u hu
  obtain ⟨hul, hrow⟩ := ampsOf_shape p.cfg τ y u hu
  have hne : ps ≠ [] := by
    rintro rfl
    exact hτ (List.length_eq_zero_iff.mp hlen.symm)
  obtain ⟨-, f, r, hf, hr, hF, hR, -⟩ := c27_propagation p.cfg τ y hset ps hne hps
  have hU : ∀ i (hi : i < ps.length), ps[i] ∈ Matrix.unitaryGroup n ℂ := by
    intro i hi
    have h1 : i < (p.xTimes τ).length := by omega
    have h2 : i < p.drift.length := by rw [hv.2.1]; exact h1
    have h3 : i < u.length := by rw [hul]; exact h1
    have := hval i _ _ _ (List.getElem?_eq_getElem h2) (List.getElem?_eq_getElem h3) (List.getElem?_eq_getElem h1)
    rw [List.getElem?_eq_getElem hi] at this
    simp only [Option.some.injEq] at this
    rw [this]
    exact propOf_unitary p hmeth _ (hamiltonian_isHermitian _ (hd _ (List.getElem_mem h2)) hc) _
  refine ⟨ps, f, r, hps, hf, hr, hlen, hF.1, hR.1, ?_, ?_, ?_⟩
  · intro P hP
    obtain ⟨i, hi, rfl⟩ := List.mem_iff_getElem.mp hP
    exact hU i hi
  · have : ∀ i, i < r.length → ∀ R, r[i]? = some R → R ∈ Matrix.unitaryGroup n ℂ := by
      intro i
      induction i with
      | zero =>
        intro _ R h
        rw [hR.2.1] at h
        simp only [Option.some.injEq] at h
        rw [← h]
        exact one_mem _
      | succ i ih =>
        intro hi R h
        obtain ⟨R', h1, h2⟩ := hR.2.2 i (by have := hR.1; omega)
        rw [h] at h2
        simp only [Option.some.injEq] at h2
        rw [h2]
        exact mul_mem (ih (by omega) R' h1) (hU _ _)
    intro R hRm
    obtain ⟨i, hi, rfl⟩ := List.mem_iff_getElem.mp hRm
    exact this i hi _ (List.getElem?_eq_getElem hi)
  · have : ∀ i, i < f.length → ∀ F, f[i]? = some F → Fᴴ * F = p.initᴴ * p.init := by
      intro i
      induction i with
      | zero =>
        intro _ F h
        rw [hF.2.1] at h
        simp only [Option.some.injEq] at h
        rw [← h]
        rfl
      | succ i ih =>
        intro hi F h
        have hi' : i < ps.length := by have := hF.1; omega
        obtain ⟨F', h1, h2⟩ := hF.2.2 i hi'
        rw [h] at h2
        simp only [Option.some.injEq] at h2
        rw [h2, Matrix.conjTranspose_mul, Matrix.mul_assoc, ← Matrix.mul_assoc _ ps[i],
          conjTranspose_mul_unitary (hU i hi'), Matrix.one_mul]
        exact ih (by omega) F' h1
    intro F hFm
    obtain ⟨i, hi, rfl⟩ := List.mem_iff_getElem.mp hFm
    exact this i hi _ (List.getElem?_eq_getElem hi)

/-! ## C41 and C32 -/

/-- Change amplitude `c` at time step `t` by `x`. -/
def bump (u : Pulse) (t c : Nat) (x : ℝ) : Pulse := u.modify t fun row => row.modify c (· + x)

theorem hamiltonian_bump (H₀ : Matrix n n ℂ) (ctrl : List (Matrix n n ℂ)) (row : List ℝ) (c : Nat) (x : ℝ)
    (H : Matrix n n ℂ) (hrow : c < row.length) (hH : ctrl[c]? = some H) :
    hamiltonian H₀ ctrl (row.modify c (· + x)) = hamiltonian H₀ ctrl row + (x : ℂ) • H := by
  unfold hamiltonian
  rw [add_assoc]
  congr 1
  induction ctrl generalizing row c with
  | nil => simp at hH
  | cons H' Hs ih =>
    cases row with
    | nil => simp at hrow
    | cons a row =>
      cases c with
      | zero =>
        simp only [List.getElem?_cons_zero, Option.some.injEq] at hH
        subst hH
        simp only [List.modify_zero_cons, List.zipWith_cons_cons, List.sum_cons, Complex.ofReal_add]
        module
      | succ c =>
        simp only [List.modify_succ_cons, List.zipWith_cons_cons, List.sum_cons]
        rw [ih row c (by simpa using hrow) (by simpa using hH), add_assoc]

/-- **C41** (Schroedinger) The generator is affine in every control amplitude, and the direction matrix is its slope:
changing amplitude `(t,c)` by `x` changes the generator of step `t` by `x` times `directions[t][c]` and no other. -/
theorem c41_directions (drift ctrl : List (Matrix n n ℂ)) (times : List ℝ) (u : Pulse) (t c : Nat) (x : ℝ)
    (ht : t < times.length) (hu : u.length = times.length) (hd : drift.length = times.length)
    (hrow : ∀ row ∈ u, row.length = ctrl.length) (hc : c < ctrl.length) :
    ∃ G D, (schroedGens drift ctrl u)[t]? = some G ∧
      ((schroedDirs ctrl times u)[t]?.bind fun Ds => Ds[c]?) = some D ∧
      (schroedGens drift ctrl (bump u t c x))[t]? = some (G + (x : ℂ) • D) ∧
      ∀ t', t' ≠ t → (schroedGens drift ctrl (bump u t c x))[t']? = (schroedGens drift ctrl u)[t']? := by
  have h1 : t < drift.length := by omega
  have h2 : t < u.length := by omega
  have hr := hrow _ (List.getElem_mem h2)
  refine ⟨_, (-Complex.I) • ctrl[c], schroedGens_getElem drift ctrl u t _ _ (List.getElem?_eq_getElem h1)
    (List.getElem?_eq_getElem h2) hr, ?_, ?_, fun t' ht' => ?_⟩
  · simp [schroedDirs, List.getElem?_replicate, ht, List.getElem?_eq_getElem hc]
  · rw [schroedGens_getElem drift ctrl (bump u t c x) t _ (u[t].modify c (· + x)) (List.getElem?_eq_getElem h1) ?_ ?_]
    · rw [hamiltonian_bump _ _ _ c x ctrl[c] (by omega) (List.getElem?_eq_getElem hc), smul_add, smul_comm]
    · simp [bump, List.getElem?_modify, List.getElem?_eq_getElem h2]
    · simp [hr]
  · by_cases hlt : t' < drift.length
    · have h3 : t' < u.length := by omega
      have hr' := hrow _ (List.getElem_mem h3)
      rw [schroedGens_getElem drift ctrl u t' _ _ (List.getElem?_eq_getElem hlt) (List.getElem?_eq_getElem h3) hr',
        schroedGens_getElem drift ctrl (bump u t c x) t' _ u[t'] (List.getElem?_eq_getElem hlt) ?_ hr']
      simp [bump, List.getElem?_modify, List.getElem?_eq_getElem h3, Ne.symm ht']
    · rw [List.getElem?_eq_none (by rw [schroedGens_length]; omega),
        List.getElem?_eq_none (by rw [schroedGens_length]; omega)]

/-- **C32** (partial: for the default method 'Frechet'; for 'spectral' see C21, for 'grape' see `c32_violated`)
Entry `[c][t]` of the derivatives is the derivative of propagator `t` with respect to amplitude `c` of step `t`. `Y x`
is a pulse leading to amplitudes with this entry increased by `x`. -/
theorem c32_derivative_partial (p : SPar n m) (τ : List ℝ) (hv : p.Valid τ) (hst : Stable p.cfg)
    (hmeth : p.method = .frechet) (happ : p.approx = .none) (hE : p.L.ExpmOk) (hF : p.L.FrechetOk)
    (t c : Nat) (ht : t < (p.xTimes τ).length) (hc : c < p.ctrl.length) (u : Pulse) (Y : ℝ → Pulse)
    (hY : ∀ x, ampsOf p.cfg τ (Y x) = some (bump u t c x)) :
    ∃ (P : ℝ → Matrix n n ℂ) (D : Matrix n n ℂ) (d : List (List (Option (Option (Matrix n n ℂ))))),
      (∀ x, ∃ ps : List (Matrix n n ℂ), (readProps p.cfg (fresh p.cfg τ (Y x))).1 = .ok (ps.map some) ∧
        ps[t]? = some (P x)) ∧
      (readDeriv p.cfg (fresh p.cfg τ (Y 0))).1 = .ok d ∧ d.length = p.ctrl.length ∧
      (∀ row ∈ d, row.length = (p.xTimes τ).length) ∧
      (d[c]?.bind fun row => row[t]?) = some (some (some D)) ∧ MatDeriv P D 0 := by
  have hb0 : bump u t c 0 = u := by
    have h1 : (fun row : List ℝ => row.modify c fun x => x + 0) = id := by
      funext row
      have : (fun x : ℝ => x + 0) = id := by funext x; simp
      rw [this, List.modify_id]; rfl
    unfold bump
    rw [h1, List.modify_id]
  have hu0 : ampsOf p.cfg τ (Y 0) = some u := by rw [hY, hb0]
  obtain ⟨hul, hrow⟩ := ampsOf_shape p.cfg τ _ u hu0
  have hul' : u.length = (p.xTimes τ).length := hul
  have h1 : t < p.drift.length := by rw [hv.2.1]; exact ht
  have h2 : t < u.length := by omega
  have hr : u[t].length = p.ctrl.length := hrow _ (List.getElem_mem h2)
  set σ := (p.xTimes τ)[t] with hσ
  set G := (-Complex.I) • hamiltonian p.drift[t] p.ctrl u[t] with hG
  set D := (-Complex.I) • p.ctrl[c] with hD
  obtain ⟨hI, hT⟩ := fresh_inv p.cfg τ (Y 0) u hu0
  have hT' : (fresh p.cfg τ (Y 0)).times = p.xTimes τ := hT
  have hm' : p.cfg.method = .frechet := hmeth
  have hap' : p.cfg.approx = .none := happ
  have hdir : ∀ (k : Nat), k < (p.xTimes τ).length →
      (p.cfg.dirs (p.xTimes τ) u).getD k [] = p.ctrl.map fun H => (-Complex.I) • H := by
    intro k hk
    show (List.replicate (p.xTimes τ).length _).getD k [] = _
    rw [List.getD_eq_getElem?_getD, List.getElem?_replicate, if_pos hk]
    rfl
  refine ⟨fun x => p.L.expm ((σ : ℂ) • (G + (x : ℂ) • D)), p.L.frechet ((σ : ℂ) • G) ((σ : ℂ) • D), ?_⟩
  have hcells := cellsD_ok p.cfg hv.2.2 (p.xTimes τ) u
    (by show _ ≤ (schroedGens p.drift p.ctrl u).length; rw [schroedGens_length, hv.2.1]) (p.dirs_ok hv.1 _ _)
  have hd : specDeriv p.cfg (p.xTimes τ) u = .ok (byControl p.cfg.nCtrl
      ((cellsD p.cfg (p.xTimes τ) u).1.map Prod.snd)) := by
    simp only [specDeriv, hap', hcells, orErr]
  refine ⟨byControl p.cfg.nCtrl ((cellsD p.cfg (p.xTimes τ) u).1.map Prod.snd), ?_, ?_, ?_, ?_, ?_, ?_⟩
  · intro x
    obtain ⟨ps, hps, -, hval⟩ := c27_readable p τ hv (Y x) _ (hY x)
    refine ⟨ps, hps, ?_⟩
    rw [hval t p.drift[t] (u[t].modify c (· + x)) σ (List.getElem?_eq_getElem h1)
      (by simp [bump, List.getElem?_modify, List.getElem?_eq_getElem h2]) (List.getElem?_eq_getElem ht)]
    rw [hamiltonian_bump _ _ _ c x p.ctrl[c] (by omega) (List.getElem?_eq_getElem hc), smul_add,
      smul_comm (-Complex.I) (x : ℂ)]
    unfold propOf dexpProp expProp
    rw [hm']
    simp only [Operator.exp]
    split <;> rfl
  · rw [(readDeriv_ok hst hI).1, hT', hd]
  · simp [byControl]; rfl
  · intro row hrow'
    obtain ⟨k, hk, rfl⟩ := List.mem_map.mp hrow'
    rw [hcells]
    simp
  · have hcn : c < p.cfg.nCtrl := hc
    have hgen : (p.cfg.gens u).getD t 0 = G := by
      rw [List.getD_eq_getElem?_getD]
      show ((schroedGens p.drift p.ctrl u)[t]?).getD 0 = G
      rw [schroedGens_getElem p.drift p.ctrl u t _ _ (List.getElem?_eq_getElem h1) (List.getElem?_eq_getElem h2) hr]
      rfl
    simp only [byControl, hcells, List.getElem?_map, List.getElem?_range hcn, Option.map_some, Option.bind_some,
      List.getElem?_range ht, hdir t ht, hgen, List.getElem?_eq_getElem hc]
    rw [List.getD_eq_getElem _ _ ht]
    simp only [gradOf, dexpGrad, hm', dexp, Option.some.injEq]
    rfl
  · have := hF ((σ : ℂ) • G) ((σ : ℂ) • D)
    refine this.congr (fun x => ?_) rfl
    rw [hE, smul_add, smul_comm (σ : ℂ) (x : ℂ)]

/-! ## Configurations for which the order of the reads matters -/

theorem fresh_caches (cfg : Cfg n m) (τ : List ℝ) (y : Pulse) :
    (fresh cfg τ y).prop = none ∧ (fresh cfg τ y).deriv = none ∧ (fresh cfg τ y).fwd = none ∧
      (fresh cfg τ y).rev = none := by
  unfold fresh setPars
  rw [if_neg (by simp [construct_facts])]
  simp only
  split
  · exact ⟨rfl, rfl, rfl, rfl⟩
  · split
    · exact ⟨rfl, rfl, rfl, rfl⟩
    · split <;> exact ⟨rfl, rfl, rfl, rfl⟩

theorem readDeriv_cached (cfg : Cfg n m) (s : St n m) (d) (h : s.deriv = some d) :
    readDeriv cfg s = (.ok d, s) := by
  rw [readDeriv, h]

/-- Reading the propagators first, in the mode that also computes derivatives. -/
theorem readProps_true (cfg : Cfg n m) (hc : cfg.calcDeriv = true) (τ : List ℝ) (y u : Pulse)
    (hu : ampsOf cfg τ y = some u) (hok : (cellsD cfg (cfg.xTimes τ) u).2 = none) :
    (readProps cfg (fresh cfg τ y)).2.deriv =
      some (byControl cfg.nCtrl ((cellsD cfg (cfg.xTimes τ) u).1.map Prod.snd)) := by
  obtain ⟨hI, hT⟩ := fresh_inv cfg τ y u hu
  rw [readProps, (fresh_caches cfg τ y).1]
  simp only
  rw [hc, computePropagation_true hI, hT, hok]

/-- Derivatives read first from a solver with approximation 'grape'. -/
theorem readDeriv_grape (cfg : Cfg n m) (ha : cfg.approx = .grape) (τ : List ℝ) (y u : Pulse)
    (hu : ampsOf cfg τ y = some u) (hp : (cellsP cfg (cfg.xTimes τ) u).2 = none)
    (hg : (grapeCells cfg (cfg.xTimes τ) u).2 = none) :
    (readDeriv cfg (fresh cfg τ y)).1 = .ok (grapeCells cfg (cfg.xTimes τ) u).1 := by
  obtain ⟨hI, hT⟩ := fresh_inv cfg τ y u hu
  have h1 : ensureProp cfg false (fresh cfg τ y) = computePropagation cfg false (fresh cfg τ y) := by
    rw [ensureProp, (fresh_caches cfg τ y).1]
  rw [readDeriv, (fresh_caches cfg τ y).2.1]
  simp only [computeDeriv, ha, h1, computePropagation_false hI, hT, hp, hI.amps, Option.getD_some]
  unfold grapeCells at hg ⊢
  rw [hg]
  rfl

theorem grapeCells_ok (p : SPar n m) (τ : List ℝ) (hv : p.Valid τ) (u : Pulse) :
    grapeCells p.cfg (p.xTimes τ) u = ((List.range (p.xTimes τ).length).map fun t =>
      (p.ctrl.map fun H => some (some ((((p.xTimes τ).getD t 0 : ℝ) : ℂ) • ((-Complex.I) • H) *
        expProp p.L p.method p.skew ((p.cfg.gens u).getD t 0) ((p.xTimes τ).getD t 0)))), none) := by
  refine fill_map_ok _ _ _ _ fun t ht => ?_
  have ht' := List.mem_range.mp ht
  have hP := cellsP_ok p.cfg hv.2.2 (p.xTimes τ) u
    (by show _ ≤ (schroedGens p.drift p.ctrl u).length; rw [schroedGens_length, hv.2.1])
  have hD : (p.cfg.dirs (p.xTimes τ) u)[t]? = some (p.ctrl.map fun H => (-Complex.I) • H) := by
    show (List.replicate (p.xTimes τ).length _)[t]? = _
    rw [List.getElem?_replicate, if_pos ht']
  have hPt : (cellsP p.cfg (p.xTimes τ) u).1[t]? =
      some (some (expProp p.L p.method p.skew ((p.cfg.gens u).getD t 0) ((p.xTimes τ).getD t 0))) := by
    rw [hP]
    simp only [List.getElem?_map, List.getElem?_range ht', Option.map_some]
    rfl
  simp only [grapeRow, hD, hPt, List.getElem?_eq_getElem ht', List.map_map, Function.comp_def,
    List.getD_eq_getElem _ _ ht']
  rw [if_neg (by rw [List.length_map]; exact lt_irrefl p.ctrl.length)]

/-- **C32** is violated for 'grape': the derivatives are indexed `[time step][control]` instead of
`[control][time step]`: the outer list has one entry per time step. (Its entries are `τ_t (-i H_c) P_t`.) -/
theorem c32_violated_grape (p : SPar n m) (τ : List ℝ) (hv : p.Valid τ) (hap : p.approx = .grape) (y u : Pulse)
    (hu : ampsOf p.cfg τ y = some u) :
    ∃ d, (readDeriv p.cfg (fresh p.cfg τ y)).1 = .ok d ∧ d.length = (p.xTimes τ).length ∧
      (∀ row ∈ d, row.length = p.ctrl.length) ∧
      (p.ctrl.length ≠ (p.xTimes τ).length → ¬ (d.length = p.ctrl.length)) := by
  have hP := cellsP_ok p.cfg hv.2.2 (p.xTimes τ) u
    (by show _ ≤ (schroedGens p.drift p.ctrl u).length; rw [schroedGens_length, hv.2.1])
  have hg := grapeCells_ok p τ hv u
  refine ⟨_, readDeriv_grape p.cfg hap τ y u hu ?_ ?_, ?_, ?_, ?_⟩
  · show (cellsP p.cfg (p.xTimes τ) u).2 = none
    rw [hP]
  · show (grapeCells p.cfg (p.xTimes τ) u).2 = none
    rw [hg]
  · show (grapeCells p.cfg (p.xTimes τ) u).1.length = _
    rw [hg]; simp
  · show ∀ row ∈ (grapeCells p.cfg (p.xTimes τ) u).1, _
    rw [hg]
    intro row hrow
    obtain ⟨t, -, rfl⟩ := List.mem_map.mp hrow
    simp
  · intro hne
    show ¬ (grapeCells p.cfg (p.xTimes τ) u).1.length = _
    rw [hg]
    simpa using Ne.symm hne

/-- **C29** is violated for `frechet_deriv_approx_method='grape'` with `calculate_propagator_derivatives=True`, if
the numbers of controls and time steps differ: the derivatives read depend on whether the propagators were read
before. -/
theorem c29_violated_grape (p : SPar n m) (τ : List ℝ) (hv : p.Valid τ) (hap : p.approx = .grape)
    (hcd : p.calcDeriv = true) (hne : p.ctrl.length ≠ (p.xTimes τ).length) (y u : Pulse)
    (hu : ampsOf p.cfg τ y = some u) :
    (readDeriv p.cfg (readProps p.cfg (fresh p.cfg τ y)).2).1 ≠ (readDeriv p.cfg (fresh p.cfg τ y)).1 := by
  obtain ⟨d, hd, hlen, -, -⟩ := c32_violated_grape p τ hv hap y u hu
  have hcells := cellsD_ok p.cfg hv.2.2 (p.xTimes τ) u
    (by show _ ≤ (schroedGens p.drift p.ctrl u).length; rw [schroedGens_length, hv.2.1]) (p.dirs_ok hv.1 _ _)
  rw [readDeriv_cached _ _ _ (readProps_true p.cfg hcd τ y u hu (by
    show (cellsD p.cfg (p.xTimes τ) u).2 = none
    rw [hcells])), hd]
  intro h
  simp only [Except.ok.injEq] at h
  rw [← h] at hlen
  simp only [byControl, List.length_map, List.length_range] at hlen
  exact hne hlen

/-- 1×1 matrices: `exp(tau)` with default arguments is the exponential. -/
theorem expDiagonalize_fin_one (L : Lapack (Fin 1)) (hL : L.EigOk) (A : Matrix (Fin 1) (Fin 1) ℂ) (τ : ℝ) :
    expDiagonalize L A τ false 0 0 = Complex.exp (τ * A 0 0) := by
  obtain ⟨hu, hAV, h1⟩ := hL A ⟨fun _ => A 0 0, 1, isUnit_one, by
    ext i j; fin_cases i; fin_cases j; simp⟩
  have hn := h1 0
  have he := congrFun (congrFun hAV 0) 0
  simp only [Finset.univ_unique, Fin.default_eq_zero, Fin.isValue, Finset.sum_singleton, Matrix.mul_apply,
    Matrix.diagonal_apply_eq] at hn he
  have hV : (L.eig A).2 0 0 ≠ 0 := by
    intro h0; rw [h0] at hn; simp at hn
  have hlam : (L.eig A).1 0 = A 0 0 := by
    have : (L.eig A).2 0 0 * (L.eig A).1 0 = (L.eig A).2 0 0 * A 0 0 := by rw [← he, mul_comm]
    exact mul_left_cancel₀ hV this
  simp only [expDiagonalize, decomp, expEinsum, Matrix.of_apply, Finset.univ_unique, Fin.default_eq_zero,
    Finset.sum_singleton, hlam, Bool.false_eq_true, if_false]
  linear_combination (Complex.exp (τ * A 0 0)) * hn

/-- **C29** is violated for the Taylor methods with `calculate_propagator_derivatives=False`: reading the
derivatives replaces the propagators. Here the first order propagator `1 - i` becomes `exp(-i)`. -/
theorem c29_violated_taylor (L : Lapack (Fin 1)) (hL : L.EigOk) :
    let cfg : Cfg (Fin 1) (Fin 1) := simpleCfg L .first false .none 1 [0] [1]
    let s := fresh cfg [1] [[1]]
    ∃ P Q, (readProps cfg s).1 = .ok [some P] ∧ (readProps cfg (readDeriv cfg (readProps cfg s).2).2).1 = .ok [some Q] ∧
      P ≠ Q := by
  intro cfg s
  have hu : ampsOf cfg [1] [[1]] = some [[1]] :=
    ampsOf_simple L .first false .none 1 [0] [1] [1] [[1]] (by simp) rfl (by simp)
  obtain ⟨hI, hT⟩ := fresh_inv cfg [1] [[1]] [[1]] hu
  have hT' : s.times = [1] := hT
  have hm : cfg.method ≠ .other := by simp [cfg, simpleCfg, schroedCfg]
  have hgl : (cfg.gens [[1]]).length = 1 := schroedGens_length _ _ _
  have hP := cellsP_ok cfg hm [1] [[1]] (by rw [hgl]; simp)
  have hD := cellsD_ok cfg hm [1] [[1]] (by rw [hgl]; simp) (by
    intro t ht
    refine ⟨[(-Complex.I) • 1], ?_, by simp, by simp [cfg, simpleCfg, schroedCfg]⟩
    show (List.replicate 1 [(-Complex.I) • (1 : Matrix (Fin 1) (Fin 1) ℂ)])[t]? = _
    rw [List.getElem?_replicate, if_pos (by simpa using ht)])
  simp only [List.length_singleton, List.range_one, List.map_cons, List.map_nil] at hP hD
  have hG : (cfg.gens [[1]]).getD 0 0 = (-Complex.I) • 1 := by
    show (schroedGens [0] [1] [[1]]).getD 0 0 = _
    simp [schroedGens, addCtrls, addCtrl, column]
  have hr1 : readProps cfg s = (.ok (cellsP cfg [1] [[1]]).1, (computePropagation cfg false s).2) := by
    rw [readProps, (fresh_caches cfg [1] [[1]]).1]
    simp only
    rw [show cfg.calcDeriv = false from rfl, computePropagation_false hI, hT', hP]
    rfl
  have hI1 : Inv cfg [[1]] (computePropagation cfg false s).2 := by
    rw [computePropagation_false hI]
    refine ⟨hI.amps, ?_, ?_, hI.fwd, hI.rev, hI.deriv⟩
    · intro g hg; simpa using hg.symm
    · intro q hq
      simp only [Option.some.injEq] at hq
      show cells cfg s.times [[1]] = _
      rw [cells, if_neg (by simp [cfg, simpleCfg, schroedCfg]), ← hq, hT', hP]
  have hd1 : (computePropagation cfg false s).2.deriv = none := by
    rw [computePropagation_false hI]; exact (fresh_caches cfg [1] [[1]]).2.1
  have ht1 : (computePropagation cfg false s).2.times = [1] := by
    rw [computePropagation_false hI]; exact hT'
  have hr2 : (readDeriv cfg (computePropagation cfg false s).2).2.prop = some ((cellsD cfg [1] [[1]]).1.map Prod.fst) := by
    rw [readDeriv, hd1]
    simp only [computeDeriv, show cfg.approx = .none from rfl]
    rw [computePropagation_true hI1, ht1, hD]
  refine ⟨expProp cfg.L cfg.method cfg.skew ((cfg.gens [[1]]).getD 0 0) 1,
    dexpProp cfg.L cfg.method cfg.skew ((cfg.gens [[1]]).getD 0 0) 1, ?_, ?_, ?_⟩
  · rw [hr1, hP]; rfl
  · rw [hr1]
    rw [readProps, hr2, hD]
    rfl
  · rw [hG]
    intro h
    have h00 := congrFun (congrFun h 0) 0
    have e1 : expProp cfg.L cfg.method cfg.skew ((-Complex.I) • 1) 1 0 0 = 1 - Complex.I := by
      show (1 + ((1 : ℝ) : ℂ) • ((-Complex.I) • (1 : Matrix (Fin 1) (Fin 1) ℂ))) 0 0 = _
      simp [sub_eq_add_neg]
    have e2 : dexpProp cfg.L cfg.method cfg.skew ((-Complex.I) • 1) 1 0 0 = Complex.exp (-Complex.I) := by
      show expDiagonalize L ((-Complex.I) • 1) ((1 : ℝ) : ℂ) false 0 0 = _
      rw [expDiagonalize_fin_one L hL]
      simp
    rw [e1, e2] at h00
    have hn := congrArg Complex.normSq h00
    have h2 : Complex.normSq (Complex.exp (-Complex.I)) = 1 := by
      rw [Complex.normSq_eq_norm_sq, show -Complex.I = ((-1 : ℝ) : ℂ) * Complex.I by simp,
        Complex.norm_exp_ofReal_mul_I]
      norm_num
    rw [h2] at hn
    norm_num [Complex.normSq_apply] at hn

/-! ## C31 with a drift operator repeated by the constructor -/

/-- The reads of two configurations that differ in the generators only beyond the last time step agree. -/
theorem spec_congr (cfg : Cfg n m) (g : Pulse → List (Matrix n n ℂ)) (times : List ℝ) (u : Pulse)
    (h : ∀ t < times.length, (cfg.gens u)[t]? = (g u)[t]?) :
    let cfg' := { cfg with gens := g }
    specProps cfg times u = specProps cfg' times u ∧ specFwd cfg times u = specFwd cfg' times u ∧
      specRev cfg times u = specRev cfg' times u ∧ specDeriv cfg times u = specDeriv cfg' times u := by
  intro cfg'
  have hsc : ∀ G σ Ds q, stepControls cfg G σ Ds q = stepControls cfg' G σ Ds q := by
    intro G σ Ds q
    induction Ds generalizing q with
    | nil => rfl
    | cons D Ds ih => simp only [stepControls, ih]; rfl
  have hD : cellsD cfg times u = cellsD cfg' times u := by
    unfold cellsD
    congr 1
    refine List.map_congr_left fun t ht => ?_
    unfold stepDeriv
    rw [h t (List.mem_range.mp ht)]
    simp only [hsc]
    rfl
  have hP : cellsP cfg times u = cellsP cfg' times u := by
    unfold cellsP
    congr 1
    refine List.map_congr_left fun t ht => ?_
    unfold stepPlain
    rw [h t (List.mem_range.mp ht)]
  have hc : cells cfg times u = cells cfg' times u := by
    unfold cells; rw [hD, hP]
  have hg : grapeCells cfg times u = grapeCells cfg' times u := by
    unfold grapeCells; rw [hP]
  refine ⟨by rw [specProps, specProps, hc], by simp only [specFwd, hc]; rfl, by rw [specRev, specRev, hc], ?_⟩
  simp only [specDeriv, hD, hP, hg]
  rfl

/-- **C31** (partial: pulse different from the last one tried, new grid not longer) A solver constructed with a
single drift operator gives, after any history and a change to a grid with at most as many steps, the results of a
solver newly constructed with this drift operator on the new grid. -/
theorem c31_shorter_grid_partial (p : SPar n m) (H₀ : Matrix n n ℂ) (τ τ' : List ℝ) (d d' : List (Matrix n n ℂ))
    (hd : constructDrift [H₀] (p.xTimes τ).length = .ok d) (hd' : constructDrift [H₀] (p.xTimes τ').length = .ok d')
    (hle : (p.xTimes τ').length ≤ (p.xTimes τ).length) (ops : List Op) (y : Pulse)
    (hst : Stable ({ p with drift := d }).cfg)
    (hy : (exec ({ p with drift := d }).cfg ops (construct ({ p with drift := d }).cfg τ)).optPars ≠ some y) :
    let cfg := ({ p with drift := d }).cfg
    let cfg' := ({ p with drift := d' }).cfg
    let s := (setPars cfg y (setTimes cfg τ' (exec cfg ops (construct cfg τ))))
    let s' := fresh cfg' τ' y
    (s.1 = none ↔ (setPars cfg' y (construct cfg' τ')).1 = none) ∧
    (s.1 = none → (readProps cfg s.2).1 = (readProps cfg' s').1 ∧ (readFwd cfg s.2).1 = (readFwd cfg' s').1 ∧
      (readRev cfg s.2).1 = (readRev cfg' s').1 ∧ (readDeriv cfg s.2).1 = (readDeriv cfg' s').1) := by
  intro cfg cfg' s s'
  simp only [constructDrift, Except.ok.injEq] at hd hd'
  obtain ⟨a, b⟩ := c31_new_grid_partial cfg τ τ' ops y hy
  have hamps : ampsOf cfg' τ' y = ampsOf cfg τ' y := rfl
  have hiff : (setPars cfg y (construct cfg τ')).1 = none ↔ (setPars cfg' y (construct cfg' τ')).1 = none := by
    rw [setPars_none_iff, setPars_none_iff, hamps]
  refine ⟨a.trans hiff, fun h => ?_⟩
  obtain ⟨r1, r2, r3, r4⟩ := b h
  obtain ⟨u, hu⟩ := (setPars_none_iff cfg τ' y).mp (a.mp h)
  obtain ⟨hI, hT⟩ := fresh_inv cfg τ' y u hu
  obtain ⟨hI', hT'⟩ := fresh_inv cfg' τ' y u (hamps.trans hu)
  have hst' : Stable cfg' := hst
  obtain ⟨hul, hrow⟩ := ampsOf_shape cfg τ' y u hu
  have hagree : ∀ t < (cfg.xTimes τ').length, (cfg.gens u)[t]? = (cfg'.gens u)[t]? := by
    intro t ht
    have h1 : t < u.length := by rw [hul]; exact ht
    have h2 : t < (p.xTimes τ').length := ht
    show (schroedGens d p.ctrl u)[t]? = (schroedGens d' p.ctrl u)[t]?
    rw [schroedGens_getElem d p.ctrl u t H₀ _ ?_ (List.getElem?_eq_getElem h1) (hrow _ (List.getElem_mem h1)),
      schroedGens_getElem d' p.ctrl u t H₀ _ ?_ (List.getElem?_eq_getElem h1) (hrow _ (List.getElem_mem h1))]
    · rw [← hd', List.getElem?_replicate, if_pos h2]
    · rw [← hd, List.getElem?_replicate, if_pos (by omega)]
  obtain ⟨e1, e2, e3, e4⟩ := spec_congr cfg (schroedGens d' p.ctrl) (cfg.xTimes τ') u hagree
  have hx : cfg'.xTimes τ' = cfg.xTimes τ' := rfl
  refine ⟨?_, ?_, ?_, ?_⟩
  · exact r1.trans (by rw [(readProps_ok hst hI).1, (readProps_ok hst' hI').1, hT, hT', hx]; exact e1)
  · exact r2.trans (by rw [(readFwd_ok hst hI).1, (readFwd_ok hst' hI').1, hT, hT', hx]; exact e2)
  · exact r3.trans (by rw [(readRev_ok hst hI).1, (readRev_ok hst' hI').1, hT, hT', hx]; exact e3)
  · exact r4.trans (by rw [(readDeriv_ok hst hI).1, (readDeriv_ok hst' hI').1, hT, hT', hx]; exact e4)

/-! ## Concrete solver meeting the hypotheses -/

/-- A qubit with two controls, two time steps and the default functions. -/
noncomputable def qubitPar (L : Lapack (Fin 2)) (a : ApproxMethod) (cd : Bool) : SPar (Fin 2) (Fin 2) :=
  ⟨L, .frechet, true, cd, a, 1, [!![1, 0; 0, -1], !![1, 0; 0, -1], !![1, 0; 0, -1]],
    [!![0, 1; 1, 0], !![0, -Complex.I; Complex.I, 0]], idTf, id, idAmp⟩

theorem qubitPar_valid (L : Lapack (Fin 2)) (a : ApproxMethod) (cd : Bool) : (qubitPar L a cd).Valid [1, 2, 3] :=
  ⟨by simp [qubitPar], rfl, by simp [qubitPar]⟩

theorem qubitPar_amps (L : Lapack (Fin 2)) (a : ApproxMethod) (cd : Bool) (y : Pulse) (hl : y.length = 3)
    (hr : ∀ row ∈ y, row.length = 2) : ampsOf (qubitPar L a cd).cfg [1, 2, 3] y = some y :=
  ampsOf_simple L .frechet cd a 1 _ _ [1, 2, 3] y (by rintro rfl; simp at hl) hl hr

/-- `c27_propagation`, `c27_readable` and `c28_unitary` apply. -/
example : ∃ (L : Lapack (Fin 2)) (ps : List (Matrix (Fin 2) (Fin 2) ℂ)) (f : List (Matrix (Fin 2) (Fin 2) ℂ))
    (r : List (Matrix (Fin 2) (Fin 2) ℂ)), let p := qubitPar L .none true
    (readProps p.cfg (fresh p.cfg [1, 2, 3] [[1, 2], [3, 4], [5, 6]])).1 = .ok (ps.map some) ∧
    (readFwd p.cfg (fresh p.cfg [1, 2, 3] [[1, 2], [3, 4], [5, 6]])).1 = .ok f ∧
    (readRev p.cfg (fresh p.cfg [1, 2, 3] [[1, 2], [3, 4], [5, 6]])).1 = .ok r ∧ ps.length = 3 ∧ f.length = 4 ∧
    r.length = 4 ∧ ∀ P ∈ ps, P ∈ Matrix.unitaryGroup (Fin 2) ℂ := by
  obtain ⟨L, -, -, hE, -⟩ := lapack_exists (Fin 2)
  have hz : (!![1, 0; 0, -1] : Matrix (Fin 2) (Fin 2) ℂ).IsHermitian := by
    ext i j; fin_cases i <;> fin_cases j <;> simp
  have hx : (!![0, 1; 1, 0] : Matrix (Fin 2) (Fin 2) ℂ).IsHermitian := by
    ext i j; fin_cases i <;> fin_cases j <;> simp
  have hy : (!![0, -Complex.I; Complex.I, 0] : Matrix (Fin 2) (Fin 2) ℂ).IsHermitian := by
    ext i j; fin_cases i <;> fin_cases j <;> simp
  obtain ⟨ps, f, r, h1, h2, h3, h4, h5, h6, h7, -⟩ := c28_unitary (qubitPar L .none true) [1, 2, 3]
    (qubitPar_valid L _ _) (Or.inl ⟨rfl, hE⟩)
    (by intro H hH; simp [qubitPar] at hH; rw [hH]; exact hz)
    (by intro H hH; simp [qubitPar] at hH; rcases hH with rfl | rfl <;> assumption) [[1, 2], [3, 4], [5, 6]]
    ((setPars_none_iff _ _ _).mpr ⟨_, qubitPar_amps L _ _ _ rfl (by simp)⟩) (by simp [qubitPar])
  have h4' : ps.length = 3 := h4
  exact ⟨L, ps, f, r, h1, h2, h3, h4', by omega, by omega, h7⟩

/-- `c79_nonempty_partial` applies: one operator for three time steps. -/
example (L : Lapack (Fin 2)) : ∃ ps : List (Matrix (Fin 2) (Fin 2) ℂ), (readProps (qubitPar L .none true).cfg
    (fresh (qubitPar L .none true).cfg [1, 2, 3] [[1, 2], [3, 4], [5, 6]])).1 = .ok (ps.map some) ∧ ps.length = 3 := by
  obtain ⟨ps, h1, h2, -⟩ := (c79_nonempty_partial (qubitPar L .none true) [!![1, 0; 0, -1]] (by simp) [1, 2, 3]
    (by simp [qubitPar]) (by simp [qubitPar]) _ _
    (qubitPar_amps L _ _ [[1, 2], [3, 4], [5, 6]] rfl (by simp))).2.1 (Or.inl rfl) rfl
  exact ⟨ps, h1, h2⟩

/-- `c32_derivative_partial` applies: control 1 at time step 2. -/
example : ∃ L : Lapack (Fin 2), ∃ P D, MatDeriv P D 0 ∧ ∀ x, ∃ ps : List (Matrix (Fin 2) (Fin 2) ℂ),
    (readProps (qubitPar L .none true).cfg
      (fresh (qubitPar L .none true).cfg [1, 2, 3] [[1, 2], [3, 4], [5, 6 + x]])).1 = .ok (ps.map some) ∧
      ps[2]? = some (P x) := by
  obtain ⟨L, -, -, hE, hF⟩ := lapack_exists (Fin 2)
  obtain ⟨P, D, d, h1, -, -, -, -, h6⟩ := c32_derivative_partial (qubitPar L .none true) [1, 2, 3]
    (qubitPar_valid L _ _) (Or.inl ⟨rfl, rfl⟩) rfl rfl hE hF 2 1 (by simp [qubitPar]) (by simp [qubitPar])
    [[1, 2], [3, 4], [5, 6]] (fun x => [[1, 2], [3, 4], [5, 6 + x]])
    (fun x => qubitPar_amps L _ _ _ rfl (by simp))
  exact ⟨L, P, D, h6, h1⟩

/-- `c29_violated_grape` and `c32_violated_grape` apply (three time steps, two controls). -/
example (L : Lapack (Fin 2)) : ∃ d, (readDeriv (qubitPar L .grape true).cfg
    (fresh (qubitPar L .grape true).cfg [1, 2, 3] [[1, 2], [3, 4], [5, 6]])).1 = .ok d ∧ d.length = 3 := by
  obtain ⟨d, h1, h2, -⟩ := c32_violated_grape (qubitPar L .grape true) [1, 2, 3] (qubitPar_valid L _ _) rfl _ _
    (qubitPar_amps L .grape true [[1, 2], [3, 4], [5, 6]] rfl (by simp))
  exact ⟨d, h1, h2⟩

end
end Verif.Solver
