import Verif.Sim.Numeric

/-!
# Property theorem C90: comparing the numeric with the analytic gradient (simulator.py:295-336)
-/

namespace Verif.Sim
open Verif Verif.Transfer

variable {p : Nat}

/-! ## Model -/

/-- The entries of an array with the axes `(time, func, par)`. -/
def flat3 (g : List (List (Fin p → ℝ))) : List ℝ := g.flatMap fun r => r.flatMap fun v => List.ofFn v

/-- `np.linalg.norm` of an array of any dimension: the 2-norm of its entries. -/
noncomputable def norm2 (l : List ℝ) : ℝ := Real.sqrt (l.map fun x => x ^ 2).sum

/-- Subtraction of arrays. -/
def sub3 (a b : List (List (Fin p → ℝ))) : List (List (Fin p → ℝ)) := List.zipWith (List.zipWith fun u v j => u j - v j) a b

open scoped Classical in
/-- `Simulator.compare_numeric_to_analytic_gradient`, simulator.py:325-336.  The relative difference is `none` for nan.  Simplification:
arrays of different shapes are rejected (numpy would repeat an axis of length one). -/
noncomputable def Sim.compareGradients (sim : Sim p) (pulse : Option (Pulse ℝ p)) (ε : ℝ) (symmetric : Bool) :
    Except PyErr (Sim p × ℝ × Option ℝ) := do
  let (sim, num) ← sim.numericGradient pulse ε symmetric
  let (sim, ana) ← sim.wrappedJac pulse
  if num.map List.length = ana.map List.length then
    let diff := norm2 (flat3 (sub3 num ana))
    let total := norm2 (flat3 num) + norm2 (flat3 ana)
    pure (sim, diff, if total = 0 then none else some (2 * diff / total))
  else .error .valueError

/-! ## Norms of lists -/

theorem norm2_nonneg (l : List ℝ) : 0 ≤ norm2 l := Real.sqrt_nonneg _

theorem sq_sum_nonneg (l : List ℝ) : 0 ≤ (l.map fun x => x ^ 2).sum := List.sum_nonneg (by
  simp only [List.mem_map]
  rintro x ⟨y, -, rfl⟩
  exact sq_nonneg y)

theorem norm2_cons (x : ℝ) (l : List ℝ) : norm2 (x :: l) = Real.sqrt (x ^ 2 + norm2 l ^ 2) := by
  unfold norm2
  rw [Real.sq_sqrt (sq_sum_nonneg l)]
  simp

theorem norm2_zero (l : List ℝ) : norm2 l = 0 ↔ ∀ x ∈ l, x = 0 := by
  induction l with
  | nil => simp [norm2]
  | cons a l ih =>
    rw [norm2_cons, Real.sqrt_eq_zero (by positivity)]
    simp only [List.mem_cons, forall_eq_or_imp, ← ih]
    constructor
    · intro h
      have h1 := sq_nonneg a
      have h2 := sq_nonneg (norm2 l)
      exact ⟨pow_eq_zero_iff (two_ne_zero) |>.mp (by linarith), pow_eq_zero_iff (two_ne_zero) |>.mp (by linarith)⟩
    · rintro ⟨rfl, h⟩
      rw [h]; ring

theorem minkowski (x y a b s : ℝ) (hs : 0 ≤ s) (h : s ≤ a + b) :
    Real.sqrt ((x - y) ^ 2 + s ^ 2) ≤ Real.sqrt (x ^ 2 + a ^ 2) + Real.sqrt (y ^ 2 + b ^ 2) := by
  have h1 : ∀ u v : ℝ, ‖(⟨u, v⟩ : ℂ)‖ = Real.sqrt (u ^ 2 + v ^ 2) := fun u v => by
    rw [Complex.norm_def, Complex.normSq_mk, sq, sq]
  have h2 := norm_add_le (⟨x, a⟩ : ℂ) ⟨-y, b⟩
  have e : (⟨x, a⟩ : ℂ) + ⟨-y, b⟩ = ⟨x - y, a + b⟩ := by
    apply Complex.ext
    · simp [sub_eq_add_neg]
    · simp
  rw [e, h1, h1, h1, neg_sq] at h2
  refine le_trans (Real.sqrt_le_sqrt ?_) h2
  nlinarith

theorem norm2_sub_le : ∀ (a b : List ℝ), a.length = b.length → norm2 (List.zipWith (· - ·) a b) ≤ norm2 a + norm2 b
  | [], [], _ => by simp [norm2]
  | x :: a, y :: b, h => by
    rw [List.zipWith_cons_cons, norm2_cons, norm2_cons, norm2_cons]
    exact minkowski _ _ _ _ _ (norm2_nonneg _) (norm2_sub_le a b (by simpa using h))
  | [], _ :: _, h => by simp at h
  | _ :: _, [], h => by simp at h

/-! ## Arrays -/

theorem flat3_sub : ∀ (a b : List (List (Fin p → ℝ))), a.map List.length = b.map List.length →
    flat3 (sub3 a b) = List.zipWith (· - ·) (flat3 a) (flat3 b) ∧ (flat3 a).length = (flat3 b).length := by
  have row : ∀ (a b : List (Fin p → ℝ)), a.length = b.length →
      (List.zipWith (fun (u v : Fin p → ℝ) j => u j - v j) a b).flatMap (fun v => List.ofFn v) =
        List.zipWith (· - ·) (a.flatMap fun v => List.ofFn v) (b.flatMap fun v => List.ofFn v) ∧
      (a.flatMap fun v => List.ofFn v).length = (b.flatMap fun v => List.ofFn v).length := by
    intro a
    induction a with
    | nil => intro b h; cases b with
      | nil => simp
      | cons => simp at h
    | cons u a ih =>
      intro b h
      cases b with
      | nil => simp at h
      | cons v b =>
        obtain ⟨h1, h2⟩ := ih b (by simpa using h)
        refine ⟨?_, ?_⟩
        · rw [List.zipWith_cons_cons, List.flatMap_cons, List.flatMap_cons, List.flatMap_cons, h1, List.zipWith_append (by simp)]
          congr 1
          apply List.ext_getElem (by simp)
          intro i h1 h2
          simp
        · rw [List.flatMap_cons, List.flatMap_cons, List.length_append, List.length_append, h2]
          simp
  intro a
  induction a with
  | nil => intro b h; cases b with
    | nil => simp [flat3, sub3]
    | cons => simp at h
  | cons u a ih =>
    intro b h
    cases b with
    | nil => simp at h
    | cons v b =>
      simp only [List.map_cons, List.cons.injEq] at h
      obtain ⟨h1, h2⟩ := ih b h.2
      obtain ⟨r1, r2⟩ := row u v h.1
      unfold flat3 sub3 at h1 ⊢
      unfold flat3 at h2
      refine ⟨?_, ?_⟩
      · rw [List.zipWith_cons_cons, List.flatMap_cons, List.flatMap_cons, List.flatMap_cons, h1, r1, List.zipWith_append r2]
      · rw [List.flatMap_cons, List.flatMap_cons, List.length_append, List.length_append, h2, r2]

theorem flat3_inj : ∀ (a b : List (List (Fin p → ℝ))), a.map List.length = b.map List.length →
    (a = b ↔ ∀ t i, ∀ j, (a.getD t []).getD i 0 j = (b.getD t []).getD i 0 j) := by
  intro a b h
  constructor
  · rintro rfl _ _ _; rfl
  · intro he
    have hl : a.length = b.length := by simpa using congrArg List.length h
    apply List.ext_getElem hl
    intro t h1 h2
    have hr : a[t].length = b[t].length := by
      have := congrArg (fun l => l.getD t 0) h
      simpa [List.getD_eq_getElem?_getD, h1, h2] using this
    apply List.ext_getElem hr
    intro i h3 h4
    funext j
    have := he t i j
    rwa [List.getD_eq_getElem a [] h1, List.getD_eq_getElem b [] h2, List.getD_eq_getElem _ 0 h3, List.getD_eq_getElem _ 0 h4] at this

theorem mem_flat3 (g : List (List (Fin p → ℝ))) (x : ℝ) : x ∈ flat3 g ↔ ∃ r ∈ g, ∃ v ∈ r, ∃ j, v j = x := by
  simp [flat3, List.mem_flatMap, List.mem_ofFn]

theorem sub3_zero : ∀ (a b : List (List (Fin p → ℝ))), a.map List.length = b.map List.length →
    ((∀ x ∈ flat3 (sub3 a b), x = 0) ↔ a = b) := by
  intro a b h
  have hzip : ∀ (a b : List ℝ), a.length = b.length → ((∀ x ∈ List.zipWith (· - ·) a b, x = 0) ↔ a = b) := by
    intro a
    induction a with
    | nil => intro b h; cases b with
      | nil => simp
      | cons => simp at h
    | cons x a ih =>
      intro b h
      cases b with
      | nil => simp at h
      | cons y b =>
        simp only [List.zipWith_cons_cons, List.mem_cons, forall_eq_or_imp, List.cons.injEq, sub_eq_zero]
        rw [ih b (by simpa using h)]
  obtain ⟨h1, h2⟩ := flat3_sub a b h
  rw [h1, hzip _ _ h2]
  constructor
  · intro hf
    clear h1 h2
    induction a generalizing b with
    | nil => cases b with
      | nil => rfl
      | cons => simp at h
    | cons u a ih =>
      cases b with
      | nil => simp at h
      | cons v b =>
        simp only [List.map_cons, List.cons.injEq] at h
        have hrow : ∀ (u v : List (Fin p → ℝ)) (r s : List ℝ), u.length = v.length →
            (u.flatMap fun v => List.ofFn v) ++ r = (v.flatMap fun v => List.ofFn v) ++ s → u = v ∧ r = s := by
          intro u
          induction u with
          | nil => intro v r s h e; cases v with
            | nil => exact ⟨rfl, by simpa using e⟩
            | cons => simp at h
          | cons x u ih =>
            intro v r s h e
            cases v with
            | nil => simp at h
            | cons y v =>
              simp only [List.flatMap_cons, List.append_assoc] at e
              obtain ⟨e1, e2⟩ := List.append_inj e (by simp)
              obtain ⟨rfl, rfl⟩ := ih v r s (by simpa using h) e2
              exact ⟨by rw [List.ofFn_injective e1], rfl⟩
        simp only [flat3, List.flatMap_cons] at hf
        obtain ⟨rfl, e⟩ := hrow u v _ _ h.1 hf
        rw [ih b h.2 e]
  · rintro rfl; rfl

/-! ## C90 -/

/-- What a successful comparison returned. -/
theorem compareGradients_ok {sim sim' : Sim p} {pulse : Option (Pulse ℝ p)} {ε d : ℝ} {symmetric : Bool} {r : Option ℝ}
    (h : sim.compareGradients pulse ε symmetric = .ok (sim', d, r)) :
    ∃ sim₁ num ana, sim.numericGradient pulse ε symmetric = .ok (sim₁, num) ∧ sim₁.wrappedJac pulse = .ok (sim', ana) ∧
      num.map List.length = ana.map List.length ∧ d = norm2 (flat3 (sub3 num ana)) ∧
      (norm2 (flat3 num) + norm2 (flat3 ana) = 0 → r = none) ∧
      (norm2 (flat3 num) + norm2 (flat3 ana) ≠ 0 → r = some (2 * d / (norm2 (flat3 num) + norm2 (flat3 ana)))) := by
  unfold Sim.compareGradients at h
  obtain ⟨⟨sim₁, num⟩, h1, h⟩ := TF.bind_ok h
  obtain ⟨⟨sim₂, ana⟩, h2, h⟩ := TF.bind_ok h
  simp only at h
  split at h
  · rename_i hs
    simp only [pure, Except.pure, Except.ok.injEq, Prod.mk.injEq] at h
    obtain ⟨rfl, rfl, rfl⟩ := h
    refine ⟨sim₁, num, ana, h1, h2, hs, rfl, fun h0 => if_pos h0, fun h0 => if_neg h0⟩
  · cases h

/-- **C90** The norm of the difference is zero exactly if the two gradients agree in every entry; the relative difference lies between 0 and
2, and is undefined exactly if both gradients vanish. -/
theorem c90_measure {sim sim' : Sim p} {pulse : Option (Pulse ℝ p)} {ε d : ℝ} {symmetric : Bool} {r : Option ℝ}
    (h : sim.compareGradients pulse ε symmetric = .ok (sim', d, r)) :
    ∃ sim₁ num ana, sim.numericGradient pulse ε symmetric = .ok (sim₁, num) ∧ sim₁.wrappedJac pulse = .ok (sim', ana) ∧
      0 ≤ d ∧ (d = 0 ↔ num = ana) ∧ (∀ x, r = some x → 0 ≤ x ∧ x ≤ 2 ∧ (x = 0 ↔ num = ana)) ∧
      (r = none ↔ (∀ row ∈ num, ∀ v ∈ row, ∀ j, v j = 0) ∧ ∀ row ∈ ana, ∀ v ∈ row, ∀ j, v j = 0) := by
  obtain ⟨sim₁, num, ana, h1, h2, hs, hd, hn, hsome⟩ := compareGradients_ok h
  obtain ⟨f1, f2⟩ := flat3_sub num ana hs
  have hd0 : 0 ≤ d := hd ▸ norm2_nonneg _
  have hz : d = 0 ↔ num = ana := by rw [hd, norm2_zero, sub3_zero num ana hs]
  have n1 := norm2_nonneg (flat3 num)
  have n2 := norm2_nonneg (flat3 ana)
  have htri : d ≤ norm2 (flat3 num) + norm2 (flat3 ana) := by
    rw [hd, f1]
    exact norm2_sub_le _ _ f2
  have hall : ∀ g : List (List (Fin p → ℝ)), norm2 (flat3 g) = 0 ↔ ∀ row ∈ g, ∀ v ∈ row, ∀ j, v j = 0 := by
    intro g
    rw [norm2_zero]
    constructor
    · intro h row hr v hv j
      exact h _ ((mem_flat3 g _).mpr ⟨row, hr, v, hv, j, rfl⟩)
    · intro h x hx
      obtain ⟨row, hr, v, hv, j, rfl⟩ := (mem_flat3 g x).mp hx
      exact h row hr v hv j
  refine ⟨sim₁, num, ana, h1, h2, hd0, hz, ?_, ?_⟩
  · intro x hx
    by_cases h0 : norm2 (flat3 num) + norm2 (flat3 ana) = 0
    · rw [hn h0] at hx; cases hx
    · rw [hsome h0] at hx
      cases hx
      have hpos : 0 < norm2 (flat3 num) + norm2 (flat3 ana) := lt_of_le_of_ne (by linarith) (Ne.symm h0)
      refine ⟨by positivity, ?_, ?_⟩
      · rw [div_le_iff₀ hpos]; linarith
      · rw [div_eq_zero_iff, ← hz]
        simp [h0]
  · rw [← hall, ← hall]
    constructor
    · intro hr
      by_cases h0 : norm2 (flat3 num) + norm2 (flat3 ana) = 0
      · constructor <;> linarith
      · rw [hsome h0] at hr; cases hr
    · rintro ⟨e1, e2⟩
      exact hn (by rw [e1, e2, add_zero])

/-- A property kept by every evaluation of the costs is kept by the numeric gradient. -/
theorem numericGradient_keeps (I : Sim p → Prop) (hI : ∀ sim w sim' C, I sim → sim.wrappedCosts w = .ok (sim', C) → I sim')
    {sim sim' : Sim p} {pulse : Option (Pulse ℝ p)} {ε : ℝ} {symmetric : Bool} {J : List (List (Fin p → ℝ))} (h0 : I sim)
    (h : sim.numericGradient pulse ε symmetric = .ok (sim', J)) : I sim' := by
  have step : ∀ (sim sim' : Sim p) y central t j q, I sim → Sim.numStep sim y central ε symmetric t j = .ok (sim', q) → I sim' := by
    intro sim sim' y central t j q h0 h
    unfold Sim.numStep at h
    obtain ⟨⟨s1, f⟩, h1, h⟩ := TF.bind_ok h
    have i1 := hI _ _ _ _ h0 h1
    cases symmetric with
    | true =>
      simp only at h
      obtain ⟨⟨s2, b⟩, h2, h⟩ := TF.bind_ok h
      obtain ⟨q', -, h⟩ := TF.bind_ok h
      simp only [pure, Except.pure, Except.ok.injEq, Prod.mk.injEq] at h
      rw [← h.1]
      exact hI _ _ _ _ i1 h2
    | false =>
      simp only at h
      obtain ⟨q', -, h⟩ := TF.bind_ok h
      simp only [pure, Except.pure, Except.ok.injEq, Prod.mk.injEq] at h
      rw [← h.1]
      exact i1
  have loop : ∀ es (sim sim' : Sim p) y central qs, I sim → Sim.numLoop sim y central ε symmetric es = .ok (sim', qs) → I sim' := by
    intro es
    induction es with
    | nil =>
      intro sim sim' y central qs h0 h
      simp only [Sim.numLoop, Except.ok.injEq, Prod.mk.injEq] at h
      rw [← h.1]; exact h0
    | cons e es ih =>
      obtain ⟨t, j⟩ := e
      intro sim sim' y central qs h0 h
      simp only [Sim.numLoop] at h
      obtain ⟨⟨s1, q⟩, h1, h⟩ := TF.bind_ok h
      obtain ⟨⟨s2, qs'⟩, h2, h⟩ := TF.bind_ok h
      simp only [pure, Except.pure, Except.ok.injEq, Prod.mk.injEq] at h
      rw [← h.1]
      exact ih _ _ _ _ _ (step _ _ _ _ _ _ _ h0 h1) h2
  unfold Sim.numericGradient at h
  obtain ⟨y, -, h⟩ := TF.bind_ok h
  obtain ⟨⟨s1, c⟩, h1, h⟩ := TF.bind_ok h
  obtain ⟨⟨s2, cols⟩, h2, h⟩ := TF.bind_ok h
  simp only [pure, Except.pure, Except.ok.injEq, Prod.mk.injEq] at h
  rw [← h.1]
  exact loop _ _ _ _ _ _ (hI _ _ _ _ h0 h1) h2

/-- Specification: the hypotheses of C55. -/
structure Sound (sim : Sim p) : Prop where
  analytic : sim.numericJacobian = false
  fits : ∀ s ∈ sim.solvers, s.tf.Fits
  coherent : ∀ s ∈ sim.solvers, s.Coherent
  amp : ∀ s ∈ sim.solvers, s.amp.Correct
  cost : ∀ F ∈ sim.costFuncs, ∀ s, sim.solvers[F.solver]? = some s → F.Correct s

theorem Sound.keep {sim sim' : Sim p} {w : Option (Pulse ℝ p)} {C : List ℝ} (h : Sound sim) (hw : sim.wrappedCosts w = .ok (sim', C)) :
    Sound sim' := by
  unfold Sim.wrappedCosts at hw
  obtain ⟨y, -, hw⟩ := TF.bind_ok hw
  obtain ⟨ss, hss, hw⟩ := TF.bind_ok hw
  obtain ⟨v, -, hw⟩ := TF.bind_ok hw
  obtain ⟨r, -, hw⟩ := TF.bind_ok hw
  simp only [pure, Except.pure, Except.ok.injEq, Prod.mk.injEq] at hw
  obtain ⟨rfl, rfl⟩ := hw
  have hget : ∀ (i : Nat) (s' : SolverObj p), ss[i]? = some s' → ∃ s tf u, sim.solvers[i]? = some s ∧ s' = s.withAmps tf (some y) u := by
    intro i s' hs'
    have : Sim.solverOf ss i = .ok s' := by simp [Sim.solverOf, hs']
    obtain ⟨s, hs, hset⟩ := setSolvers_get hss this
    obtain ⟨tf, x, -, -, -, e⟩ := setPars_ok (h.coherent s (List.mem_of_getElem? hs)) hset
    exact ⟨s, tf, _, hs, e⟩
  refine ⟨h.analytic, setSolvers_fits h.fits hss, setSolvers_coherent h.coherent hss, ?_, ?_⟩
  · intro s' hs'
    obtain ⟨i, hi⟩ := List.mem_iff_getElem?.mp hs'
    obtain ⟨s, tf, u, hs, rfl⟩ := hget i s' hi
    exact h.amp s (List.mem_of_getElem? hs)
  · intro F hF s' hs'
    obtain ⟨s, tf, u, hs, rfl⟩ := hget _ s' hs'
    obtain ⟨φ, h1, h2⟩ := h.cost F hF s hs
    exact ⟨φ, fun tf o u hu => h1 tf o u hu, fun tf o u jac hu hj => h2 tf o u jac hu hj⟩

theorem Evaluates.keep {sim sim' : Sim p} {n : Nat} {C : Pulse ℝ p → List ℝ} {w : Option (Pulse ℝ p)} {c : List ℝ} (h : Evaluates sim n C)
    (hw : sim.wrappedCosts w = .ok (sim', c)) : Evaluates sim' n C := by
  obtain ⟨h2, h3⟩ := tame_costs sim sim' _ _ h.tame hw
  have hw' : ∃ y, sim.wrappedCosts (some y) = .ok (sim', c) := by
    unfold Sim.wrappedCosts at hw
    obtain ⟨y, hy, hw⟩ := TF.bind_ok hw
    exact ⟨y, hw⟩
  obtain ⟨y, hw'⟩ := hw'
  refine ⟨h2, fun z hz => ?_⟩
  obtain ⟨sim₁, h4⟩ := h.value z hz
  exact costs_stable sim sim' sim₁ y z _ _ h.tame hw' h4

/-- The entries returned by `wrapped_jac_function` are derivatives of the costs (C55). -/
theorem jac_entry {sim sim' : Sim p} {y : Pulse ℝ p} {f : Nat} {Q : Pulse ℝ p → Fin f → ℝ} {ana : List (List (Fin p → ℝ))} (hs : Sound sim)
    (he : Evaluates sim y.length fun z => List.ofFn (Q z)) (h : sim.wrappedJac (some y) = .ok (sim', ana)) (t : Nat) (ht : t < y.length)
    (i : Fin f) (j : Fin p) : HasDerivAt (fun x => Q (shift y t j x) i) ((ana.getD t []).getD i 0 j) 0 := by
  obtain ⟨-, C, c1, c2, c3⟩ := c55_chain_rule_partial sim sim' y ana hs.analytic hs.fits hs.coherent hs.amp hs.cost h t ht j
  have hC : ∀ x, C x = List.ofFn (Q (shift y t j x)) := by
    intro x
    obtain ⟨s1, e1⟩ := c1 x
    obtain ⟨s2, e2⟩ := he.value (shift y t j x) (shift_length _ _ _ _)
    rw [e1] at e2
    simp only [Except.ok.injEq, Prod.mk.injEq] at e2
    exact e2.2
  have := c3 i
  simp only [hC] at this
  refine this.congr_of_eventuallyEq (Filter.Eventually.of_forall fun x => ?_)
  simp [List.getD_eq_getElem?_getD]

/-- **C90** For a correct cost function the comparison reports no difference: with symmetric differences if the costs are quadratic in every
single parameter, with forward differences if they are affine. -/
theorem c90_consistent (sim sim' : Sim p) (y : Pulse ℝ p) (hs : Sound sim) (f : Nat)
    (Q : Pulse ℝ p → Fin f → ℝ) (h : Evaluates sim y.length fun z => List.ofFn (Q z)) (ε : ℝ) (hε : ε ≠ 0) (symmetric : Bool)
    (hq : ∀ t < y.length, ∀ (j : Fin p) (i : Fin f), ∃ a b c : ℝ, (symmetric = false → c = 0) ∧
      ∀ x, Q (shift y t j x) i = a + b * x + c * x ^ 2)
    (d : ℝ) (r : Option ℝ) (hres : sim.compareGradients (some y) ε symmetric = .ok (sim', d, r)) : d = 0 := by
  obtain ⟨sim₁, num, ana, h1, h2, h3, h4, -⟩ := compareGradients_ok hres
  have hnum : num.length = y.length ∧ (∀ t < y.length, (num.getD t []).length = f) ∧
      ∀ t < y.length, ∀ (i : Fin f) (j : Fin p), HasDerivAt (fun x => Q (shift y t j x) i) ((num.getD t []).getD i 0 j) 0 := by
    cases symmetric with
    | true =>
      obtain ⟨sim'', J, g1, -, g2, g3, g4⟩ := c57_symmetric sim (some y) y rfl f Q h ε hε (fun t ht j i => by
        obtain ⟨a, b, c, -, e⟩ := hq t ht j i
        exact ⟨a, b, c, e⟩)
      rw [h1] at g1
      cases g1
      exact ⟨g2, g3, g4⟩
    | false =>
      obtain ⟨sim'', J, g1, -, g2, g3, g4⟩ := c57_forward sim (some y) y rfl f Q h ε hε (fun t ht j i => by
        obtain ⟨a, b, c, e0, e⟩ := hq t ht j i
        exact ⟨a, b, fun x => by rw [e, e0 rfl]; ring⟩)
      rw [h1] at g1
      cases g1
      exact ⟨g2, g3, g4⟩
  obtain ⟨n1, n2, n3⟩ := hnum
  have hs₁ : Sound sim₁ := numericGradient_keeps Sound (fun _ _ _ _ a b => a.keep b) hs h1
  have he₁ : Evaluates sim₁ y.length fun z => List.ofFn (Q z) :=
    numericGradient_keeps (fun s => Evaluates s y.length fun z => List.ofFn (Q z)) (fun _ _ _ _ a b => a.keep b) h h1
  have hana := jac_entry hs₁ he₁ h2
  have heq : num = ana := by
    rw [flat3_inj num ana h3]
    intro t i j
    have hl : ana.length = y.length := by rw [← n1]; simpa using (congrArg List.length h3).symm
    by_cases ht : t < y.length
    · have hrow : (ana.getD t []).length = f := by
        rw [← n2 t ht]
        have := congrArg (fun l => l.getD t 0) h3
        simp only [List.getD_eq_getElem?_getD, List.getElem?_map] at this
        rw [List.getD_eq_getElem _ _ (by omega), List.getD_eq_getElem _ _ (by omega)]
        rw [List.getElem?_eq_getElem (by omega), List.getElem?_eq_getElem (by omega)] at this
        simpa using this.symm
      by_cases hi : i < f
      · exact (n3 t ht ⟨i, hi⟩ j).unique (hana t ht ⟨i, hi⟩ j)
      · rw [List.getD_eq_default _ _ (by rw [n2 t ht]; omega), List.getD_eq_default _ _ (by rw [hrow]; omega)]
    · rw [List.getD_eq_default num [] (by omega), List.getD_eq_default ana [] (by omega)]
  rw [h4, norm2_zero, sub3_zero num ana h3]
  exact heq

/-! ### Small steps -/

theorem sum_flat3 (φ : ℝ → ℝ) (g : List (List (Fin p → ℝ))) (n f : Nat) (hn : g.length = n) (hf : ∀ t < n, (g.getD t []).length = f) :
    ((flat3 g).map φ).sum = ∑ t ∈ Finset.range n, ∑ i ∈ Finset.range f, ∑ j, φ ((g.getD t []).getD i 0 j) := by
  have row : ∀ (r : List (Fin p → ℝ)), ((r.flatMap fun v => List.ofFn v).map φ).sum = ∑ i ∈ Finset.range r.length, ∑ j, φ (r.getD i 0 j) := by
    intro r
    induction r with
    | nil => simp
    | cons v r ih =>
      rw [List.flatMap_cons, List.map_append, List.sum_append, ih, List.length_cons, Finset.sum_range_succ']
      simp only [List.getD_cons_succ, List.getD_cons_zero]
      rw [add_comm, List.map_ofFn, List.sum_ofFn]
      rfl
  induction g generalizing n with
  | nil => subst hn; simp [flat3]
  | cons r g ih =>
    subst hn
    have h0 := hf 0 (by simp)
    simp only [List.getD_cons_zero] at h0
    have := ih g.length rfl fun t ht => by
      have := hf (t + 1) (by simpa using ht)
      simpa using this
    unfold flat3 at this ⊢
    rw [List.flatMap_cons, List.map_append, List.sum_append, this, row, List.length_cons, Finset.sum_range_succ', h0]
    simp only [List.getD_cons_succ, List.getD_cons_zero]
    rw [add_comm]

theorem sub3_entry (a b : List (List (Fin p → ℝ))) (n f : Nat) (ha : a.length = n) (hb : b.length = n)
    (hfa : ∀ t < n, (a.getD t []).length = f) (hfb : ∀ t < n, (b.getD t []).length = f) :
    (sub3 a b).length = n ∧ (∀ t < n, ((sub3 a b).getD t []).length = f) ∧
    ∀ t < n, ∀ i < f, ∀ j, ((sub3 a b).getD t []).getD i 0 j = (a.getD t []).getD i 0 j - (b.getD t []).getD i 0 j := by
  have hrow : ∀ t < n, (sub3 a b).getD t [] = List.zipWith (fun u v j => u j - v j) (a.getD t []) (b.getD t []) := by
    intro t ht
    unfold sub3
    rw [List.getD_eq_getElem _ _ (by simp; omega), List.getD_eq_getElem _ _ (by omega), List.getD_eq_getElem _ _ (by omega),
      List.getElem_zipWith]
  refine ⟨by simp [sub3, ha, hb], fun t ht => ?_, fun t ht i hi j => ?_⟩
  · rw [hrow t ht, List.length_zipWith, hfa t ht, hfb t ht, min_self]
  · have l1 := hfa t ht
    have l2 := hfb t ht
    rw [hrow t ht, List.getD_eq_getElem _ _ (by rw [List.length_zipWith]; omega), List.getD_eq_getElem (a.getD t []) _ (by omega),
      List.getD_eq_getElem (b.getD t []) _ (by omega), List.getElem_zipWith]

/-- Forward and symmetric difference quotients of a differentiable function tend to the derivative. -/
theorem quotient_tendsto (F : ℝ → ℝ) (F' : ℝ) (h : HasDerivAt F F' 0) :
    Filter.Tendsto (fun ε => (F ε - F 0) / ε) (nhdsWithin 0 {0}ᶜ) (nhds F') ∧
    Filter.Tendsto (fun ε => (F ε - F (-ε)) / (2 * ε)) (nhdsWithin 0 {0}ᶜ) (nhds F') := by
  have h1 : Filter.Tendsto (fun ε => (F ε - F 0) / ε) (nhdsWithin 0 {0}ᶜ) (nhds F') := by
    have := hasDerivAt_iff_tendsto_slope_zero.mp h
    simp only [zero_add, smul_eq_mul] at this
    refine this.congr fun ε => ?_
    rw [div_eq_inv_mul]
  refine ⟨h1, ?_⟩
  have hneg : Filter.Tendsto (fun ε : ℝ => -ε) (nhdsWithin 0 {0}ᶜ) (nhdsWithin 0 {0}ᶜ) := by
    apply tendsto_nhdsWithin_of_tendsto_nhds_of_eventually_within
    · have : Filter.Tendsto (fun ε : ℝ => -ε) (nhds 0) (nhds (-0)) := continuous_neg.tendsto 0
      rw [neg_zero] at this
      exact this.mono_left nhdsWithin_le_nhds
    · filter_upwards [self_mem_nhdsWithin] with ε hε
      simpa using hε
  have h2 := (h1.add (h1.comp hneg)).div_const 2
  have e : (F' + F') / 2 = F' := by ring
  rw [e] at h2
  refine h2.congr' ?_
  filter_upwards [self_mem_nhdsWithin] with ε hε
  have hε : ε ≠ 0 := by simpa using hε
  simp only [Function.comp]
  field_simp
  ring

/-- The difference quotient computed by `numeric_gradient`. -/
noncomputable def diffQuot (symmetric : Bool) (F : ℝ → ℝ) (ε : ℝ) : ℝ :=
  if symmetric then (F ε - F (-ε)) / (2 * ε) else (F ε - F 0) / ε

/-- **C90** For correct gradients the reported difference tends to zero with the step width, for forward and for symmetric differences and
whatever differentiable costs. -/
theorem c90_limit (sim : Sim p) (y : Pulse ℝ p) (hs : Sound sim) (f : Nat) (Q : Pulse ℝ p → Fin f → ℝ)
    (h : Evaluates sim y.length fun z => List.ofFn (Q z)) (symmetric : Bool) (S : ℝ → Sim p) (d : ℝ → ℝ) (r : ℝ → Option ℝ)
    (hres : ∀ ε ≠ 0, sim.compareGradients (some y) ε symmetric = .ok (S ε, d ε, r ε)) :
    Filter.Tendsto d (nhdsWithin 0 {0}ᶜ) (nhds 0) := by
  have hana : ∀ ε ≠ 0, ∃ num ana, d ε = norm2 (flat3 (sub3 num ana)) ∧ num.length = y.length ∧ ana.length = y.length ∧
      (∀ t < y.length, (num.getD t []).length = f) ∧ (∀ t < y.length, (ana.getD t []).length = f) ∧
      (∀ t < y.length, ∀ (i : Fin f) (j : Fin p), (num.getD t []).getD i 0 j = diffQuot symmetric (fun x => Q (shift y t j x) i) ε) ∧
      ∀ t < y.length, ∀ (i : Fin f) (j : Fin p), HasDerivAt (fun x => Q (shift y t j x) i) ((ana.getD t []).getD i 0 j) 0 := by
    intro ε hε
    obtain ⟨sim₁, num, ana, h1, h2, h3, h4, -⟩ := compareGradients_ok (hres ε hε)
    obtain ⟨sim₁', num', h1', -, n1, n2, n3⟩ := numericGradient_eq sim (some y) y rfl f Q h ε symmetric
    rw [h1] at h1'
    cases h1'
    have hl : ana.length = y.length := by rw [← n1]; simpa using (congrArg List.length h3).symm
    refine ⟨num, ana, h4, n1, hl, n2, ?_, ?_, ?_⟩
    · intro t ht
      rw [← n2 t ht]
      have := congrArg (fun l => l.getD t 0) h3
      simp only [List.getD_eq_getElem?_getD, List.getElem?_map] at this
      rw [List.getD_eq_getElem _ _ (by omega), List.getD_eq_getElem _ _ (by omega)]
      rw [List.getElem?_eq_getElem (by omega), List.getElem?_eq_getElem (by omega)] at this
      simpa using this.symm
    · intro t ht i j
      rw [n3 t ht i j, diffQuot, shift_zero]
      cases symmetric <;> rfl
    · have hs₁ : Sound sim₁ := numericGradient_keeps Sound (fun _ _ _ _ a b => a.keep b) hs h1
      have he₁ : Evaluates sim₁ y.length fun z => List.ofFn (Q z) :=
        numericGradient_keeps (fun s => Evaluates s y.length fun z => List.ofFn (Q z)) (fun _ _ _ _ a b => a.keep b) h h1
      exact jac_entry hs₁ he₁ h2
  obtain ⟨-, ana₁, -, -, -, -, -, -, hD⟩ := hana 1 one_ne_zero
  have hsq : ∀ ε ≠ 0, Real.sqrt (∑ t ∈ Finset.range y.length, ∑ i : Fin f, ∑ j,
      (diffQuot symmetric (fun x => Q (shift y t j x) i) ε - (ana₁.getD t []).getD i 0 j) ^ 2) = d ε := by
    intro ε hε
    obtain ⟨num, ana, e, l1, l2, l3, l4, e1, e2⟩ := hana ε hε
    obtain ⟨k1, k2, k3⟩ := sub3_entry num ana y.length f l1 l2 l3 l4
    rw [e, norm2, sum_flat3 (fun x => x ^ 2) _ y.length f k1 k2]
    congr 1
    refine Finset.sum_congr rfl fun t ht => ?_
    rw [Finset.sum_range]
    refine Finset.sum_congr rfl fun i _ => Finset.sum_congr rfl fun j _ => ?_
    have ht := Finset.mem_range.mp ht
    rw [k3 t ht i i.2 j, e1 t ht i j, (hD t ht i j).unique (e2 t ht i j)]
  have hlim : Filter.Tendsto (fun ε => Real.sqrt (∑ t ∈ Finset.range y.length, ∑ i : Fin f, ∑ j,
      (diffQuot symmetric (fun x => Q (shift y t j x) i) ε - (ana₁.getD t []).getD i 0 j) ^ 2)) (nhdsWithin 0 {0}ᶜ) (nhds (Real.sqrt 0)) := by
    refine (Real.continuous_sqrt.tendsto 0).comp ?_
    have e0 : (0 : ℝ) = ∑ t ∈ Finset.range y.length, ∑ i : Fin f, ∑ j : Fin p,
        ((ana₁.getD t []).getD i 0 j - (ana₁.getD t []).getD i 0 j) ^ 2 := by simp
    conv => arg 3; rw [e0]
    apply tendsto_finset_sum
    intro t ht
    apply tendsto_finset_sum
    intro i _
    apply tendsto_finset_sum
    intro j _
    refine (Filter.Tendsto.sub_const ?_ _).pow 2
    obtain ⟨q1, q2⟩ := quotient_tendsto _ _ (hD t (Finset.mem_range.mp ht) i j)
    cases symmetric
    · exact q1.congr fun ε => by simp [diffQuot]
    · exact q2.congr fun ε => by simp [diffQuot]
  rw [Real.sqrt_zero] at hlim
  refine hlim.congr' ?_
  filter_upwards [self_mem_nhdsWithin] with ε hε
  exact hsq ε (by simpa using hε)

/-- **C90** (violated): with `numeric_jacobian=True` the comparison with its default arguments always reports no difference, whatever the
gradients of the cost functions return: it compares the finite differences with themselves. -/
theorem c90_violated_numeric (sim : Sim p) (hn : sim.numericJacobian = true) (y : Pulse ℝ p) (f : Nat) (Q : Pulse ℝ p → Fin f → ℝ)
    (h : Evaluates sim y.length fun z => List.ofFn (Q z)) :
    ∃ sim' r, sim.compareGradients (some y) Sim.defaultEps false = .ok (sim', 0, r) := by
  obtain ⟨sim₁, J, h1, -, j1, j2, j3⟩ := numericGradient_eq sim (some y) y rfl f Q h Sim.defaultEps false
  have he₁ : Evaluates sim₁ y.length fun z => List.ofFn (Q z) :=
    numericGradient_keeps (fun s => Evaluates s y.length fun z => List.ofFn (Q z)) (fun _ _ _ _ a b => a.keep b) h h1
  have hn₁ : sim₁.numericJacobian = true := by
    refine numericGradient_keeps (fun s => s.numericJacobian = true) (fun s w s' C a b => ?_) hn h1
    unfold Sim.wrappedCosts at b
    obtain ⟨y, -, b⟩ := TF.bind_ok b
    obtain ⟨ss, hss, b⟩ := TF.bind_ok b
    obtain ⟨v, -, b⟩ := TF.bind_ok b
    obtain ⟨r, -, b⟩ := TF.bind_ok b
    simp only [pure, Except.pure, Except.ok.injEq, Prod.mk.injEq] at b
    rw [← b.1]; exact a
  obtain ⟨sim₂, J', h2, -, k1, k2, k3⟩ := numericGradient_eq sim₁ (some y) y rfl f Q he₁ Sim.defaultEps false
  have hlen : J.map List.length = J'.map List.length := by
    apply List.ext_getElem (by simp [j1, k1])
    intro t h1 h2
    simp only [List.length_map] at h1 h2
    have a := j2 t (by omega)
    have b := k2 t (by omega)
    rw [List.getD_eq_getElem _ _ h1] at a
    rw [List.getD_eq_getElem _ _ h2] at b
    simp [a, b]
  have hJ : J = J' := by
    rw [flat3_inj J J' hlen]
    intro t i j
    by_cases ht : t < y.length
    · by_cases hi : i < f
      · rw [j3 t ht ⟨i, hi⟩ j, k3 t ht ⟨i, hi⟩ j]
      · rw [List.getD_eq_default _ _ (by rw [j2 t ht]; omega), List.getD_eq_default _ _ (by rw [k2 t ht]; omega)]
    · rw [List.getD_eq_default J [] (by omega), List.getD_eq_default J' [] (by omega)]
  have hjac : sim₁.wrappedJac (some y) = .ok (sim₂, J') := by
    unfold Sim.wrappedJac
    rw [hn₁]
    exact h2
  have hzero : norm2 (flat3 (sub3 J J')) = 0 := by
    rw [norm2_zero, sub3_zero J J' hlen]
    exact hJ
  refine ⟨sim₂, if norm2 (flat3 J) + norm2 (flat3 J') = 0 then none else some (2 * 0 / (norm2 (flat3 J) + norm2 (flat3 J'))), ?_⟩
  unfold Sim.compareGradients
  simp only [bind, Except.bind, h1, hjac]
  rw [if_pos hlen, hzero]
  rfl

namespace Ex90

/-- The matrix transfer function of `Ex55`, the sum of the squared amplitudes as cost; the solver holds some parameters. -/
noncomputable def at' (o : Option (Pulse ℝ 1)) (a : Option (Pulse ℝ 1)) : SolverObj 1 := ⟨1, Ex55.tf, .identity, 3, o, a⟩

noncomputable def solver : SolverObj 1 := at' none none

noncomputable def sim : Sim 1 :=
  { solvers := [solver], costFuncs := [Ex55.cost], pulse := none, numTimes := none, numCtrl := none, numericJacobian := false }

theorem cost_correct : Ex55.cost.Correct solver := by
  obtain ⟨φ, h1, h2⟩ := Ex55.cost_correct
  exact ⟨φ, fun tf o u hu => h1 tf o u hu, fun tf o u jac hu hj => h2 tf o u jac hu hj⟩

theorem sound : Sound sim := by
  refine ⟨rfl, ?_, ?_, ?_, ?_⟩
  · intro s hs
    simp only [sim, List.mem_singleton] at hs
    subst hs
    intro T hT
    simp only [TF.getMatrix, Except.ok.injEq] at hT
    subst hT
    exact ⟨rfl, rfl⟩
  · intro s hs
    simp only [sim, List.mem_singleton] at hs
    subst hs
    intro y hy
    simp [solver, at'] at hy
  · intro s hs
    simp only [sim, List.mem_singleton] at hs
    subst hs
    trivial
  · intro F hF s hs
    simp only [sim, List.mem_singleton] at hF
    subst hF
    simp only [sim, Ex55.cost, List.getElem?_cons_zero, Option.some.injEq] at hs
    subst hs
    exact cost_correct

/-- The amplitudes are `y` times the matrix, shifted by 5. -/
noncomputable def Q (z : Pulse ℝ 1) (_ : Fin 1) : ℝ :=
  (2 * rowAt z 1 0 + 5) ^ 2 + (rowAt z 0 0 + 3 * rowAt z 1 0 + 5) ^ 2 + (2 * rowAt z 0 0 + 4 * rowAt z 1 0 + 5) ^ 2

theorem evaluates : Evaluates sim 2 fun z => List.ofFn (Q z) := by
  refine ⟨⟨?_, ?_⟩, ?_⟩
  · intro s hs y hy
    simp only [sim, List.mem_singleton] at hs
    subst hs
    simp [solver, at'] at hy
  · intro F hF s hs
    simp only [sim, List.mem_singleton] at hF
    subst hF
    exact ⟨fun u => .ok [(u.map fun r => ∑ k, r k ^ 2).sum], fun _ _ _ => rfl⟩
  · intro z hz
    match z, hz with
    | [a, b], _ =>
      simp [Sim.wrappedCosts, sim, Sim.given, Sim.setSolvers, SolverObj.setPars, solver, at', Ex55.tf, TF.call, TF.checkRows,
        Ex55.base, TF.getMatrix, Tensor.apply, bind, Except.bind, pure, Except.pure, AmpFunc.call, TF.addOffset, Sim.costLoop,
        Sim.solverOf, Ex55.cost, Sim.concatenate0, Q, rowAt, Finset.sum_range_succ, List.range_succ]
      ring

theorem quadratic (t : Nat) (ht : t < 2) (j : Fin 1) (i : Fin 1) (a b : Fin 1 → ℝ) :
    ∃ a' b' c' : ℝ, (true = false → c' = 0) ∧ ∀ x, Q (shift [a, b] t j x) i = a' + b' * x + c' * x ^ 2 := by
  have hj : j = 0 := Subsingleton.elim _ _
  subst hj
  have : t = 0 ∨ t = 1 := by omega
  rcases this with rfl | rfl
  · exact ⟨Q [a, b] 0, 2 * (a 0 + 3 * b 0 + 5) + 4 * (2 * a 0 + 4 * b 0 + 5), 5, nofun, fun x => by simp [Q, shift, rowAt]; ring⟩
  · exact ⟨Q [a, b] 0, 4 * (2 * b 0 + 5) + 6 * (a 0 + 3 * b 0 + 5) + 8 * (2 * a 0 + 4 * b 0 + 5), 29, nofun,
      fun x => by simp [Q, shift, rowAt]; ring⟩

/-- The simulator after some evaluations. -/
def Reached (s : Sim 1) : Prop :=
  ∃ o a, s = { sim with solvers := [at' o a] } ∧ (at' o a).Coherent

theorem amps_of (y : Pulse ℝ 1) (hy : y.length = 2) : ∃ x, Ex55.tf.call y = .ok (Ex55.tf, x) ∧ x.length = 3 := by
  simp [Ex55.tf, TF.call, TF.checkRows, Ex55.base, TF.getMatrix, Tensor.apply, bind, Except.bind, pure, Except.pure, TF.addOffset, hy]

theorem set_reached (o : Option (Pulse ℝ 1)) (a : Option (Pulse ℝ 1)) (y : Pulse ℝ 1)
    (hc : (at' o a).Coherent) (s' : SolverObj 1)
    (h : (at' o a).setPars y = .ok s') :
    ∃ x, s' = at' (some y) (some x) ∧ x.length = 3 := by
  obtain ⟨tf, x, -, hx, hl, e⟩ := setPars_ok hc h
  unfold SolverObj.setPars at h
  split at h
  · rename_i hy
    simp only [Except.ok.injEq] at h
    subst h
    have hy' : o = some y := hy
    subst hy'
    obtain ⟨x', -, h2, h3⟩ := hc y rfl
    have h2' : a = some x' := h2
    subst h2'
    exact ⟨_, rfl, h3⟩
  · obtain ⟨⟨tf', x'⟩, hq, h⟩ := TF.bind_ok h
    simp only at h
    split at h
    · rename_i hl'
      simp only [pure, Except.pure, Except.ok.injEq] at h
      subst h
      have ht : tf' = Ex55.tf := by
        have hq' : Ex55.tf.call y = .ok (tf', x') := hq
        simp only [Ex55.tf, TF.call, TF.getMatrix] at hq'
        obtain ⟨u, -, hq'⟩ := TF.bind_ok hq'
        simp only [pure, Except.pure] at hq'
        obtain ⟨v, hv, hq'⟩ := TF.bind_ok hq'
        cases hv
        obtain ⟨v, -, hq'⟩ := TF.bind_ok hq'
        cases hq'
        rfl
      subst ht
      exact ⟨_, rfl, hl'⟩
    · cases h

theorem reached_keep (s : Sim 1) (w : Option (Pulse ℝ 1)) (s' : Sim 1) (C : List ℝ) (h : Reached s) (hw : s.wrappedCosts w = .ok (s', C)) :
    Reached s' := by
  obtain ⟨o, a, rfl, hc⟩ := h
  unfold Sim.wrappedCosts at hw
  obtain ⟨y, -, hw⟩ := TF.bind_ok hw
  obtain ⟨ss, hss, hw⟩ := TF.bind_ok hw
  obtain ⟨v, -, hw⟩ := TF.bind_ok hw
  obtain ⟨r, -, hw⟩ := TF.bind_ok hw
  simp only [pure, Except.pure, Except.ok.injEq, Prod.mk.injEq] at hw
  obtain ⟨rfl, -⟩ := hw
  have hco := setSolvers_coherent (by simpa using hc) hss
  obtain ⟨s', h1, hss⟩ := TF.bind_ok hss
  obtain ⟨rest, h2, hss⟩ := TF.bind_ok hss
  cases h2
  cases hss
  obtain ⟨x, rfl, -⟩ := set_reached o a y hc s' h1
  exact ⟨_, _, rfl, hco _ (List.mem_singleton.mpr rfl)⟩

/-- Comparisons meeting the hypotheses of `c90_measure`, `c90_limit` and, with `quadratic`, of `c90_consistent`. -/
example (ε : ℝ) (symmetric : Bool) : ∃ sim' d r, sim.compareGradients (some [fun _ => 3, fun _ => 4]) ε symmetric = .ok (sim', d, r) := by
  obtain ⟨sim₁, num, h1, -, l1, l2, -⟩ := numericGradient_eq sim (some [fun _ => 3, fun _ => 4]) [fun _ => 3, fun _ => 4] rfl 1 Q evaluates ε
    symmetric
  have h0 : Reached sim := ⟨none, none, rfl, sound.coherent _ (List.mem_singleton.mpr rfl)⟩
  obtain ⟨o, a, rfl, hc⟩ := numericGradient_keeps Reached reached_keep h0 h1
  have h2 : ∃ sim₂ ana, ({ sim with solvers := [at' o a] } : Sim 1).wrappedJac
      (some [fun _ => 3, fun _ => 4]) = .ok (sim₂, ana) ∧ ana.map List.length = [1, 1] := by
    have hset : ∃ s', (at' o a).setPars [fun _ => 3, fun _ => 4] = .ok s' := by
      unfold SolverObj.setPars
      split
      · exact ⟨_, rfl⟩
      · obtain ⟨x, hx, hl⟩ := amps_of [fun _ => 3, fun _ => 4] rfl
        have hx' : (at' o a).tf.call [fun _ => 3, fun _ => 4] = .ok (Ex55.tf, x) := hx
        simp only [bind, Except.bind, hx']
        exact ⟨_, if_pos hl⟩
    obtain ⟨s', hs'⟩ := hset
    obtain ⟨x, rfl, hl⟩ := set_reached o a _ hc s' hs'
    simp only [Sim.wrappedJac, sim, Sim.given, Sim.setSolvers, hs', bind, Except.bind, pure, Except.pure]
    simp [bind, Except.bind, pure, Except.pure, Sim.jacLoop, Sim.solverOf, Ex55.cost,
      Sim.jacOf, Jac.expand, AmpFunc.chain, TF.grad, Tensor.applyAdj, Sim.concatenate1, at', Ex55.tf, TF.call,
      TF.checkRows, Ex55.base, TF.getMatrix, Tensor.apply, TF.addOffset, hl, List.range_succ]
  obtain ⟨sim₂, ana, h2, l3⟩ := h2
  have l4 : num.map List.length = [1, 1] := by
    match num, l1 with
    | [u, v], _ =>
      have a := l2 0 (by simp)
      have b := l2 1 (by simp)
      simp only [List.getD_cons_zero, List.getD_cons_succ] at a b
      simp [a, b]
  refine ⟨sim₂, norm2 (flat3 (sub3 num ana)), if norm2 (flat3 num) + norm2 (flat3 ana) = 0 then none else
    some (2 * norm2 (flat3 (sub3 num ana)) / (norm2 (flat3 num) + norm2 (flat3 ana))), ?_⟩
  unfold Sim.compareGradients
  simp only [bind, Except.bind, h1, h2]
  rw [if_pos (l4.trans l3.symm)]
  rfl

/-- The hypotheses of `c90_violated_numeric`, with a gradient that is wrong. -/
example : ∃ sim : Sim 1, sim.numericJacobian = true ∧ (∀ F ∈ sim.costFuncs, ∀ s, F.grad s = .ok (.flat [fun _ => 17])) ∧
    Evaluates sim 2 fun z => List.ofFn (Q z) := by
  refine ⟨{ sim with numericJacobian := true, costFuncs := [{ Ex55.cost with grad := fun _ => .ok (.flat [fun _ => 17]) }] }, rfl, ?_, ?_⟩
  · simp
  · refine ⟨⟨?_, ?_⟩, ?_⟩
    · intro s hs y hy
      simp only [sim, List.mem_singleton] at hs
      subst hs
      simp [solver, at'] at hy
    · intro F hF s hs
      simp only [List.mem_singleton] at hF
      subst hF
      exact ⟨fun u => .ok [(u.map fun r => ∑ k, r k ^ 2).sum], fun _ _ _ => rfl⟩
    · intro z hz
      match z, hz with
      | [a, b], _ =>
        simp [Sim.wrappedCosts, sim, Sim.given, Sim.setSolvers, SolverObj.setPars, solver, at', Ex55.tf, TF.call, TF.checkRows,
          Ex55.base, TF.getMatrix, Tensor.apply, bind, Except.bind, pure, Except.pure, AmpFunc.call, TF.addOffset, Sim.costLoop,
          Sim.solverOf, Ex55.cost, Sim.concatenate0, Q, rowAt, Finset.sum_range_succ, List.range_succ]
        ring

end Ex90

end Verif.Sim
