import Verif.Sim.Covariance

/-!
# C115: pulses compose

A pulse is a sequence of time steps and a list of controls.  Playing two pulses after each other, steps without duration, the
order of the controls, controls which are switched off and the reversal of a pulse have the effect they have in the laboratory.
-/

namespace Verif.Sim
open Verif Verif.Transfer Verif.Operator Verif.Solver Verif.Cost Matrix

variable {n m : Type} [Fintype n] [DecidableEq n]

/-! ## Lemmas -/

omit [DecidableEq n] in
/-- The forward propagators are determined by the propagators. -/
theorem forward_unique {init : Matrix n m ℂ} {ps : List (Matrix n n ℂ)} {f g : List (Matrix n m ℂ)} (hf : IsForward init ps f)
    (hg : IsForward init ps g) : f = g := by
  have key : ∀ i, i ≤ ps.length → f[i]? = g[i]? := by
    intro i
    induction i with
    | zero => intro _; rw [hf.2.1, hg.2.1]
    | succ i ih =>
      intro hi
      obtain ⟨F, a1, a2⟩ := hf.2.2 i (by omega)
      obtain ⟨G, b1, b2⟩ := hg.2.2 i (by omega)
      have := ih (by omega)
      rw [a1, b1] at this
      simp only [Option.some.injEq] at this
      rw [a2, b2, this]
  refine List.ext_getElem? fun i => ?_
  by_cases hi : i ≤ ps.length
  · exact key i hi
  · rw [List.getElem?_eq_none (by rw [hf.1]; omega), List.getElem?_eq_none (by rw [hg.1]; omega)]

omit [DecidableEq n] in
theorem forward_append {init : Matrix n m ℂ} {ps qs : List (Matrix n n ℂ)} {f g : List (Matrix n m ℂ)} {F : Matrix n m ℂ}
    (hf : IsForward init ps f) (hF : f.getLast? = some F) (hg : IsForward F qs g) : IsForward init (ps ++ qs) (f ++ g.tail) := by
  have hF' : f[ps.length]? = some F := by
    rw [List.getLast?_eq_getElem?, hf.1, Nat.add_sub_cancel] at hF
    exact hF
  have hlow : ∀ i, i ≤ ps.length → (f ++ g.tail)[i]? = f[i]? := fun i hi =>
    List.getElem?_append_left (by rw [hf.1]; omega)
  have hhigh : ∀ i, (f ++ g.tail)[ps.length + i]? = g[i]? := by
    intro i
    cases i with
    | zero => rw [Nat.add_zero, hlow _ le_rfl, hF', hg.2.1]
    | succ i =>
      rw [List.getElem?_append_right (by rw [hf.1]; omega), hf.1, List.getElem?_tail]
      congr 1
      omega
  refine ⟨by simp [hf.1, hg.1]; omega, ?_, fun i hi => ?_⟩
  · rw [hlow 0 (by omega), hf.2.1]
  · by_cases h : i < ps.length
    · obtain ⟨X, a1, a2⟩ := hf.2.2 i h
      exact ⟨X, by rw [hlow _ h.le, a1], by rw [hlow _ h, a2, List.getElem_append_left h]⟩
    · obtain ⟨k, rfl⟩ := Nat.exists_eq_add_of_le (not_lt.mp h)
      obtain ⟨X, a1, a2⟩ := hg.2.2 k (by simp at hi; omega)
      refine ⟨X, by rw [hhigh, a1], ?_⟩
      rw [Nat.add_assoc, hhigh, a2, List.getElem_append_right (by omega)]
      simp

/-- The propagators of the solver, one by one. -/
theorem Computes.steps_eq {p : SPar n m} {τ : List ℝ} (h : Computes p τ) (u : Solver.Pulse) (hu : u.length = τ.length) :
    p.bare.steps τ u = List.zipWith (fun s a => NormedSpace.exp (((s : ℝ) : ℂ) • ((-Complex.I) • hamiltonian a.1 p.ctrl a.2))) τ
      (p.drift.zip u) := by
  refine List.ext_getElem ?_ fun i h1 h2 => ?_
  · rw [steps_length]
    show τ.length = _
    simp [h.drift, hu]
  · have hi : i < τ.length := by rw [steps_length] at h1; exact h1
    have hd : i < p.drift.length := by rw [h.drift]; exact hi
    have hui : i < u.length := by omega
    rw [List.getElem_zipWith, List.getElem_zip]
    have := h.step u i hi
    simp only [SPar.steps, List.getElem_map, List.getElem_range]
    rw [this, List.getD_eq_getElem _ _ hi, List.getD_eq_getElem _ _ hd, List.getD_eq_getElem _ _ hui]

theorem Computes.withInit {p : SPar n m} {τ : List ℝ} (h : Computes p τ) {k : Type} (X : Matrix n k ℂ) :
    Computes (n := n) (m := k) ⟨p.L, p.method, p.skew, p.calcDeriv, p.approx, X, p.drift, p.ctrl, p.tf, p.xTimes, p.amp⟩ τ :=
  ⟨h.ctrl, h.drift, h.steps, h.stable, h.method⟩

/-- The derivatives with the Frechet method. -/
theorem Computes.deriv {p : SPar n m} {τ : List ℝ} (h : Computes p τ) (hm : p.method = .frechet) (ha : p.approx = .none)
    (u : Solver.Pulse) (hu : u.length = τ.length) (hrow : ∀ row ∈ u, row.length = p.ctrl.length) :
    ∃ d, (readDeriv p.bare.cfg (fresh p.bare.cfg τ u)).1 = .ok d ∧ plainDerivs d = .ok ((List.range p.ctrl.length).map fun c =>
      (List.range τ.length).map fun t => p.bare.dstep τ u t c) := by
  have hne : u ≠ [] := by
    intro h0
    rw [h0] at hu
    exact h.steps (List.length_eq_zero_iff.mp hu.symm)
  obtain ⟨r, e1, e2, e3, e4⟩ := idAmp_ok u p.ctrl.length hne hrow
  have hamp := ampsOf_some p.bare.cfg τ u u r rfl e1 e2 (by rw [e4]; exact hu) e3
  rw [e4] at hamp
  obtain ⟨d, s', g1, g2, -⟩ := (ready_fresh p.bare τ u u hamp).deriv ⟨h.ctrl, h.drift, by
    show p.method ≠ .other
    rw [hm]; simp⟩ h.stable hm ha
  exact ⟨d, by rw [g1], g2⟩

theorem Computes.withCtrl {p : SPar n m} {τ : List ℝ} (h : Computes p τ) (cs : List (Matrix n n ℂ)) (hne : cs ≠ [])
    (hH : p.method = .spectral → ∀ H ∈ cs, H.IsHermitian) : Computes { p with ctrl := cs } τ := by
  refine ⟨hne, h.drift, h.steps, ?_, ?_⟩
  · rcases h.stable with h1 | ⟨h1, h2, -⟩ | h1
    · exact Or.inl h1
    · refine Or.inr (Or.inl ⟨h1, h2, fun times u t Ds hD => ?_⟩)
      have : (List.replicate times.length (cs.map fun H => (-Complex.I) • H))[t]? = some Ds := hD
      rw [List.getElem?_replicate] at this
      split at this
      · simp only [Option.some.injEq] at this
        rw [← this]
        simpa using hne
      · cases this
    · exact Or.inr (Or.inr h1)
  · rcases h.method with h1 | h1
    · exact Or.inl h1
    · exact Or.inr ⟨h1.1, h1.2.1, h1.2.2.1, h1.2.2.2.1, hH h1.1⟩

/-! ## C115 -/

/-- **C115** Two pulses played after each other: the forward propagators are those of the first pulse followed by those of the
second pulse which starts where the first one ended. -/
theorem c115_concat (p : SPar n m) (d₁ d₂ : List (Matrix n n ℂ)) (τ₁ τ₂ : List ℝ) (h₁ : Computes { p with drift := d₁ } τ₁)
    (h₂ : Computes { p with drift := d₂ } τ₂) (u₁ u₂ : Solver.Pulse) (hu₁ : u₁.length = τ₁.length) (hu₂ : u₂.length = τ₂.length)
    (hr₁ : ∀ row ∈ u₁, row.length = p.ctrl.length) (hr₂ : ∀ row ∈ u₂, row.length = p.ctrl.length) :
    ∃ f₁ F f₂, (readFwd { p with drift := d₁ }.bare.cfg (fresh { p with drift := d₁ }.bare.cfg τ₁ u₁)).1 = .ok f₁ ∧
      f₁.getLast? = some F ∧
      (readFwd { p with drift := d₂, init := F }.bare.cfg (fresh { p with drift := d₂, init := F }.bare.cfg τ₂ u₂)).1 = .ok f₂ ∧
      (readFwd { p with drift := d₁ ++ d₂ }.bare.cfg (fresh { p with drift := d₁ ++ d₂ }.bare.cfg (τ₁ ++ τ₂) (u₁ ++ u₂))).1 =
        .ok (f₁ ++ f₂.tail) := by
  have hd₁ : d₁.length = τ₁.length := h₁.drift
  have hd₂ : d₂.length = τ₂.length := h₂.drift
  have h : Computes { p with drift := d₁ ++ d₂ } (τ₁ ++ τ₂) := by
    refine ⟨h₁.ctrl, by simp [hd₁, hd₂], by simp [h₁.steps], h₁.stable, ?_⟩
    rcases h₁.method with g | g
    · exact Or.inl g
    · refine Or.inr ⟨g.1, g.2.1, g.2.2.1, fun H hH => ?_, g.2.2.2.2⟩
      rcases h₂.method with g' | g'
      · have a : p.method = .frechet := g'.1
        have b : p.method = .spectral := g.1
        rw [a] at b
        cases b
      · rcases List.mem_append.mp hH with hH | hH
        · exact g.2.2.2.1 H hH
        · exact g'.2.2.2.1 H hH
  obtain ⟨f₁, e1, e2⟩ := h₁.fwd u₁ hu₁ hr₁
  obtain ⟨F, hF⟩ : ∃ F, f₁.getLast? = some F := by
    cases f₁ with
    | nil => simp [IsForward] at e2
    | cons a l => exact ⟨_, List.getLast?_eq_some_getLast (by simp)⟩
  have h₂' : Computes { p with drift := d₂, init := F } τ₂ := h₂.withInit F
  obtain ⟨f₂, g1, g2⟩ := h₂'.fwd u₂ hu₂ hr₂
  obtain ⟨f, k1, k2⟩ := h.fwd (u₁ ++ u₂) (by simp [hu₁, hu₂]) (by
    intro row hrow
    rcases List.mem_append.mp hrow with hrow | hrow
    · exact hr₁ row hrow
    · exact hr₂ row hrow)
  refine ⟨f₁, F, f₂, e1, hF, g1, ?_⟩
  rw [k1]
  congr 1
  refine forward_unique k2 ?_
  have hs : { p with drift := d₁ ++ d₂ }.bare.steps (τ₁ ++ τ₂) (u₁ ++ u₂) =
      { p with drift := d₁ }.bare.steps τ₁ u₁ ++ { p with drift := d₂, init := F }.bare.steps τ₂ u₂ := by
    rw [h.steps_eq _ (by simp [hu₁, hu₂]), h₁.steps_eq _ hu₁, h₂'.steps_eq _ hu₂]
    rw [List.zip_append (by rw [hd₁, hu₁]), List.zipWith_append (by simp [hd₁, hu₁])]
  rw [hs]
  exact forward_append e2 hF g2

/-- The last forward propagator is linear in the initial operator. -/
theorem forward_linear {init : Matrix n m ℂ} {ps : List (Matrix n n ℂ)} {f : List (Matrix n m ℂ)} {g : List (Matrix n n ℂ)}
    (hf : IsForward init ps f) (hg : IsForward 1 ps g) (i : Nat) (hi : i ≤ ps.length) :
    ∃ U, g[i]? = some U ∧ f[i]? = some (U * init) := by
  induction i with
  | zero => exact ⟨1, hg.2.1, by rw [hf.2.1, Matrix.one_mul]⟩
  | succ i ih =>
    obtain ⟨U, a1, a2⟩ := ih (by omega)
    obtain ⟨X, b1, b2⟩ := hf.2.2 i (by omega)
    obtain ⟨Y, c1, c2⟩ := hg.2.2 i (by omega)
    rw [a1] at c1
    rw [a2] at b1
    simp only [Option.some.injEq] at b1 c1
    subst b1 c1
    exact ⟨_, c2, by rw [b2, Matrix.mul_assoc]⟩

/-- **C115** The operator of two pulses played after each other is the product of their operators, the later one leftmost. -/
theorem c115_product (p : SPar n n) (hi : p.init = 1) (d₁ d₂ : List (Matrix n n ℂ)) (τ₁ τ₂ : List ℝ)
    (h₁ : Computes { p with drift := d₁ } τ₁) (h₂ : Computes { p with drift := d₂ } τ₂) (u₁ u₂ : Solver.Pulse)
    (hu₁ : u₁.length = τ₁.length) (hu₂ : u₂.length = τ₂.length) (hr₁ : ∀ row ∈ u₁, row.length = p.ctrl.length)
    (hr₂ : ∀ row ∈ u₂, row.length = p.ctrl.length) :
    ∃ f₁ f₂ f U₁ U₂, (readFwd { p with drift := d₁ }.bare.cfg (fresh { p with drift := d₁ }.bare.cfg τ₁ u₁)).1 = .ok f₁ ∧
      (readFwd { p with drift := d₂ }.bare.cfg (fresh { p with drift := d₂ }.bare.cfg τ₂ u₂)).1 = .ok f₂ ∧
      (readFwd { p with drift := d₁ ++ d₂ }.bare.cfg (fresh { p with drift := d₁ ++ d₂ }.bare.cfg (τ₁ ++ τ₂) (u₁ ++ u₂))).1 =
        .ok f ∧ f₁.getLast? = some U₁ ∧ f₂.getLast? = some U₂ ∧ f.getLast? = some (U₂ * U₁) := by
  obtain ⟨f₁, F, g, e1, e2, e3, e4⟩ := c115_concat p d₁ d₂ τ₁ τ₂ h₁ h₂ u₁ u₂ hu₁ hu₂ hr₁ hr₂
  have h₂' : Computes { p with drift := d₂, init := F } τ₂ := h₂.withInit F
  obtain ⟨f₂, a1, a2⟩ := h₂.fwd u₂ hu₂ hr₂
  obtain ⟨g', b1, b2⟩ := h₂'.fwd u₂ hu₂ hr₂
  rw [e3] at b1
  simp only [Except.ok.injEq] at b1
  subst b1
  have hs : { p with drift := d₂, init := F }.bare.steps τ₂ u₂ = { p with drift := d₂ }.bare.steps τ₂ u₂ := by
    rw [h₂.steps_eq _ hu₂, h₂'.steps_eq _ hu₂]
  rw [hs] at b2
  have hl : ({ p with drift := d₂ }.bare.steps τ₂ u₂).length = τ₂.length := steps_length _ _ _
  have a2' : IsForward 1 ({ p with drift := d₂ }.bare.steps τ₂ u₂) f₂ := by
    have : ({ p with drift := d₂ } : SPar n n).init = 1 := hi
    rw [← this]; exact a2
  obtain ⟨U, k1, k2⟩ := forward_linear b2 a2' τ₂.length (by rw [hl])
  have hne : τ₂.length ≠ 0 := fun h0 => h₂.steps (List.length_eq_zero_iff.mp h0)
  refine ⟨f₁, f₂, _, F, U, e1, a1, e4, e2, ?_, ?_⟩
  · rw [List.getLast?_eq_getElem?, a2.1, hl, Nat.add_sub_cancel, k1]
  · have hgl : g.length = τ₂.length + 1 := by rw [b2.1, hl]
    rw [List.getLast?_append, List.getLast?_eq_getElem?, List.getElem?_tail, List.length_tail, hgl,
      show τ₂.length + 1 - 1 - 1 + 1 = τ₂.length by omega, k2]
    rfl

/-- **C115** A time step without duration, whatever its amplitudes and its drift, repeats a forward propagator and changes nothing
else. -/
theorem c115_zero_step (p : SPar n m) (d₁ d₂ : List (Matrix n n ℂ)) (H : Matrix n n ℂ) (τ₁ τ₂ : List ℝ) (u₁ u₂ : Solver.Pulse)
    (row : List ℝ) (h : Computes { p with drift := d₁ ++ d₂ } (τ₁ ++ τ₂)) (hH : p.method = .spectral → H.IsHermitian)
    (hd : d₁.length = τ₁.length) (hu₁ : u₁.length = τ₁.length) (hu₂ : u₂.length = τ₂.length)
    (hr : ∀ r ∈ u₁ ++ u₂, r.length = p.ctrl.length) (hrow : row.length = p.ctrl.length) :
    ∃ f f', (readFwd { p with drift := d₁ ++ d₂ }.bare.cfg (fresh { p with drift := d₁ ++ d₂ }.bare.cfg (τ₁ ++ τ₂) (u₁ ++ u₂))).1 =
        .ok f ∧
      (readFwd { p with drift := d₁ ++ H :: d₂ }.bare.cfg (fresh { p with drift := d₁ ++ H :: d₂ }.bare.cfg (τ₁ ++ 0 :: τ₂)
        (u₁ ++ row :: u₂))).1 = .ok f' ∧
      (∀ i ≤ τ₁.length, f'[i]? = f[i]?) ∧ ∀ i, τ₁.length ≤ i → f'[i + 1]? = f[i]? := by
  have hd₂ : d₂.length = τ₂.length := by have := h.drift; simp at this; omega
  have h' : Computes { p with drift := d₁ ++ H :: d₂ } (τ₁ ++ 0 :: τ₂) := by
    refine ⟨h.ctrl, by simp [hd, hd₂], by simp, h.stable, ?_⟩
    rcases h.method with g | g
    · exact Or.inl g
    · refine Or.inr ⟨g.1, g.2.1, g.2.2.1, fun G hG => ?_, g.2.2.2.2⟩
      rcases List.mem_append.mp hG with hG | hG
      · exact g.2.2.2.1 G (List.mem_append_left _ hG)
      · rcases List.mem_cons.mp hG with rfl | hG
        · exact hH g.1
        · exact g.2.2.2.1 G (List.mem_append_right _ hG)
  obtain ⟨f, e1, e2⟩ := h.fwd (u₁ ++ u₂) (by simp [hu₁, hu₂]) hr
  obtain ⟨f', e1', e2'⟩ := h'.fwd (u₁ ++ row :: u₂) (by simp [hu₁, hu₂]) (by
    intro r hm
    rcases List.mem_append.mp hm with hm | hm
    · exact hr r (List.mem_append_left _ hm)
    · rcases List.mem_cons.mp hm with rfl | hm
      · exact hrow
      · exact hr r (List.mem_append_right _ hm))
  refine ⟨f, f', e1, e1', ?_⟩
  rw [h.steps_eq _ (by simp [hu₁, hu₂]), List.zip_append (by rw [hd, hu₁]), List.zipWith_append (by simp [hd, hu₁])] at e2
  rw [h'.steps_eq _ (by simp [hu₁, hu₂]), List.zip_append (by rw [hd, hu₁]), List.zipWith_append (by simp [hd, hu₁]),
    List.zip_cons_cons, List.zipWith_cons_cons] at e2'
  simp only [Complex.ofReal_zero, zero_smul, NormedSpace.exp_zero] at e2 e2'
  generalize hA : List.zipWith (fun s a => NormedSpace.exp (((s : ℝ) : ℂ) • ((-Complex.I) • hamiltonian a.1 p.ctrl a.2))) τ₁
    (d₁.zip u₁) = A at e2 e2'
  generalize List.zipWith (fun s a => NormedSpace.exp (((s : ℝ) : ℂ) • ((-Complex.I) • hamiltonian a.1 p.ctrl a.2))) τ₂
    (d₂.zip u₂) = B at e2 e2'
  have hAl : A.length = τ₁.length := by rw [← hA]; simp [hd, hu₁]
  rw [← hAl]
  have low : ∀ i ≤ A.length, f'[i]? = f[i]? := by
    intro i
    induction i with
    | zero => intro _; rw [e2.2.1, e2'.2.1]
    | succ i ih =>
      intro hi
      obtain ⟨F, a1, a2⟩ := e2.2.2 i (by simp; omega)
      obtain ⟨F', b1, b2⟩ := e2'.2.2 i (by simp; omega)
      have := ih (by omega)
      rw [a1, b1] at this
      simp only [Option.some.injEq] at this
      rw [a2, b2, this, List.getElem_append_left (by omega), List.getElem_append_left (by omega)]
  refine ⟨low, fun i hi => ?_⟩
  obtain ⟨k, rfl⟩ := Nat.exists_eq_add_of_le hi
  clear hi
  induction k with
  | zero =>
    obtain ⟨F', b1, b2⟩ := e2'.2.2 A.length (by simp)
    have h0 := low _ le_rfl
    rw [b1] at h0
    rw [b2, show A.length + 0 = A.length from rfl, ← h0, List.getElem_append_right le_rfl]
    simp
  | succ k ih =>
    by_cases hk : k < B.length
    · obtain ⟨F, a1, a2⟩ := e2.2.2 (A.length + k) (by simp; omega)
      obtain ⟨F', b1, b2⟩ := e2'.2.2 (A.length + k + 1) (by simp; omega)
      rw [a1, b1] at ih
      simp only [Option.some.injEq] at ih
      rw [← Nat.add_assoc, a2, b2, ih, List.getElem_append_right (by omega), List.getElem_append_right (by omega)]
      simp only [Option.some.injEq]
      congr 1
      have h1 : A.length + k + 1 - A.length = k + 1 := by omega
      have h2 : A.length + k - A.length = k := by omega
      simp only [h1, h2, List.getElem_cons_succ]
    · rw [List.getElem?_eq_none (by rw [e2'.1]; simp; omega), List.getElem?_eq_none (by rw [e2.1]; simp; omega)]

/-! ### Controls -/

omit [Fintype n] [DecidableEq n] in
theorem hamiltonian_ofFn {N : Nat} (H₀ : Matrix n n ℂ) (H : Fin N → Matrix n n ℂ) (r : Fin N → ℝ) :
    hamiltonian H₀ (List.ofFn H) (List.ofFn r) = H₀ + ∑ c, (r c : ℂ) • H c := by
  unfold hamiltonian
  congr 1
  rw [← List.sum_ofFn]
  congr 1
  refine List.ext_getElem (by simp) fun i h1 h2 => by simp

/-- **C115** The order of the controls does not matter: with the controls and the columns of the amplitudes permuted the forward
propagators are the same and the derivatives are permuted. -/
theorem c115_order {N : Nat} (p : SPar n m) (H : Fin N → Matrix n n ℂ) (hp : p.ctrl = List.ofFn H) (σ : Equiv.Perm (Fin N))
    (τ : List ℝ) (h : Computes p τ) (u : List (Fin N → ℝ)) (hu : u.length = τ.length) :
    ∃ f, (readFwd p.bare.cfg (fresh p.bare.cfg τ (u.map fun r => List.ofFn r))).1 = .ok f ∧
      (readFwd { p with ctrl := List.ofFn (H ∘ σ) }.bare.cfg (fresh { p with ctrl := List.ofFn (H ∘ σ) }.bare.cfg τ
        (u.map fun r => List.ofFn (r ∘ σ)))).1 = .ok f ∧
      (p.method = .frechet → p.approx = .none → ∃ d d' D,
        (readDeriv p.bare.cfg (fresh p.bare.cfg τ (u.map fun r => List.ofFn r))).1 = .ok d ∧
        (readDeriv { p with ctrl := List.ofFn (H ∘ σ) }.bare.cfg (fresh { p with ctrl := List.ofFn (H ∘ σ) }.bare.cfg τ
          (u.map fun r => List.ofFn (r ∘ σ)))).1 = .ok d' ∧
        plainDerivs d = .ok (List.ofFn D) ∧ plainDerivs d' = .ok (List.ofFn (D ∘ σ))) := by
  have hmem : ∀ G ∈ List.ofFn (H ∘ σ), G ∈ p.ctrl := by
    intro G hG
    obtain ⟨i, rfl⟩ := List.mem_ofFn.mp hG
    rw [hp]
    exact List.mem_ofFn.mpr ⟨σ i, rfl⟩
  have hN : 0 < N := by
    rcases Nat.eq_zero_or_pos N with rfl | h0
    · exact absurd hp (by simpa using h.ctrl)
    · exact h0
  have h' : Computes { p with ctrl := List.ofFn (H ∘ σ) } τ := by
    refine h.withCtrl _ (by simpa using hN.ne') fun hm G hG => ?_
    rcases h.method with g | g
    · rw [g.1] at hm
      cases hm
    · exact g.2.2.2.2 G (hmem G hG)
  have hl : p.ctrl.length = N := by rw [hp]; simp
  have hrow : ∀ row ∈ u.map fun r => List.ofFn r, row.length = p.ctrl.length := by
    intro row hr
    obtain ⟨r, -, rfl⟩ := List.mem_map.mp hr
    simp [hl]
  have hrow' : ∀ row ∈ u.map fun r => List.ofFn (r ∘ σ), row.length = ({ p with ctrl := List.ofFn (H ∘ σ) } : SPar n m).ctrl.length := by
    intro row hr
    obtain ⟨r, -, rfl⟩ := List.mem_map.mp hr
    simp
  have hham : ∀ (H₀ : Matrix n n ℂ) (r : Fin N → ℝ),
      hamiltonian H₀ (List.ofFn (H ∘ σ)) (List.ofFn (r ∘ σ)) = hamiltonian H₀ p.ctrl (List.ofFn r) := by
    intro H₀ r
    rw [hp, hamiltonian_ofFn, hamiltonian_ofFn]
    congr 1
    exact Equiv.sum_comp σ fun c => (r c : ℂ) • H c
  obtain ⟨f, e1, e2⟩ := h.fwd _ (by simpa using hu) hrow
  obtain ⟨f', e1', e2'⟩ := h'.fwd _ (by simpa using hu) hrow'
  have hs : ({ p with ctrl := List.ofFn (H ∘ σ) } : SPar n m).bare.steps τ (u.map fun r => List.ofFn (r ∘ σ)) =
      p.bare.steps τ (u.map fun r => List.ofFn r) := by
    rw [h.steps_eq _ (by simpa using hu), h'.steps_eq _ (by simpa using hu)]
    simp only [List.zip_map_right, List.zipWith_map_right, Prod.map_fst, Prod.map_snd, id, hham]
  rw [hs] at e2'
  have := forward_unique e2 e2'
  subst this
  refine ⟨f, e1, e1', fun hm ha => ?_⟩
  obtain ⟨d, a1, a2⟩ := h.deriv hm ha _ (by simpa using hu) hrow
  obtain ⟨d', b1, b2⟩ := h'.deriv hm ha _ (by simpa using hu) hrow'
  refine ⟨d, d', fun c => (List.range τ.length).map fun t => p.bare.dstep τ (u.map fun r => List.ofFn r) t c, a1, b1, ?_, ?_⟩
  · rw [a2, hl]
    congr 1
    exact List.ext_getElem (by simp) fun i h1 h2 => by simp
  · rw [b2]
    congr 1
    refine List.ext_getElem (by simp) fun i h1 h2 => ?_
    have hi : i < N := by simpa using h1
    rw [List.getElem_map, List.getElem_range, List.getElem_ofFn]
    refine List.map_congr_left fun t ht => ?_
    have ht' : t < u.length := by rw [hu]; exact List.mem_range.mp ht
    unfold SPar.dstep
    have g1 : (u.map fun r => List.ofFn (r ∘ σ)).getD t [] = List.ofFn (u[t] ∘ σ) := by
      rw [List.getD_eq_getElem _ _ (by simpa using ht'), List.getElem_map]
    have g2 : (u.map fun r => List.ofFn r).getD t [] = List.ofFn u[t] := by
      rw [List.getD_eq_getElem _ _ (by simpa using ht'), List.getElem_map]
    have g3 : ({ p with ctrl := List.ofFn (H ∘ σ) } : SPar n m).bare.ctrl.getD i 0 = p.bare.ctrl.getD (σ ⟨i, hi⟩) 0 := by
      show (List.ofFn (H ∘ σ)).getD i 0 = p.ctrl.getD (σ ⟨i, hi⟩) 0
      rw [hp, List.getD_eq_getElem _ _ (by simpa using hi), List.getD_eq_getElem _ _ (by simp)]
      simp
    rw [g1, g2, g3]
    show p.L.frechet (_ • -Complex.I • hamiltonian (p.drift.getD t 0) (List.ofFn (H ∘ σ)) (List.ofFn (u[t] ∘ σ))) _ =
      p.L.frechet (_ • -Complex.I • hamiltonian (p.drift.getD t 0) p.ctrl (List.ofFn u[t])) _
    rw [hham]
    rfl

omit [Fintype n] [DecidableEq n] in
theorem hamiltonian_idle (H₀ : Matrix n n ℂ) (cs : List (Matrix n n ℂ)) (G : Matrix n n ℂ) (row : List ℝ) (h : row.length = cs.length) :
    hamiltonian H₀ (cs ++ [G]) (row ++ [0]) = hamiltonian H₀ cs row := by
  unfold hamiltonian
  rw [List.zipWith_append h]
  simp

/-- **C115** A control which is switched off does not matter: with another control whose amplitudes vanish the forward propagators
and the derivatives by the other controls are the same. -/
theorem c115_idle (p : SPar n m) (G : Matrix n n ℂ) (hG : p.method = .spectral → G.IsHermitian) (τ : List ℝ) (h : Computes p τ)
    (u : Solver.Pulse) (hu : u.length = τ.length) (hrow : ∀ row ∈ u, row.length = p.ctrl.length) :
    ∃ f, (readFwd p.bare.cfg (fresh p.bare.cfg τ u)).1 = .ok f ∧
      (readFwd { p with ctrl := p.ctrl ++ [G] }.bare.cfg (fresh { p with ctrl := p.ctrl ++ [G] }.bare.cfg τ
        (u.map fun r => r ++ [0]))).1 = .ok f ∧
      (p.method = .frechet → p.approx = .none → ∃ d d' D x,
        (readDeriv p.bare.cfg (fresh p.bare.cfg τ u)).1 = .ok d ∧
        (readDeriv { p with ctrl := p.ctrl ++ [G] }.bare.cfg (fresh { p with ctrl := p.ctrl ++ [G] }.bare.cfg τ
          (u.map fun r => r ++ [0]))).1 = .ok d' ∧
        plainDerivs d = .ok D ∧ plainDerivs d' = .ok (D ++ [x])) := by
  have h' : Computes { p with ctrl := p.ctrl ++ [G] } τ := by
    refine h.withCtrl _ (by simp) fun hm K hK => ?_
    rcases h.method with g | g
    · rw [g.1] at hm
      cases hm
    · rcases List.mem_append.mp hK with hK | hK
      · exact g.2.2.2.2 K hK
      · rw [List.mem_singleton.mp hK]
        exact hG hm
  have hrow' : ∀ row ∈ u.map fun r => r ++ [0], row.length = ({ p with ctrl := p.ctrl ++ [G] } : SPar n m).ctrl.length := by
    intro row hr
    obtain ⟨r, hm, rfl⟩ := List.mem_map.mp hr
    simp [hrow r hm]
  obtain ⟨f, e1, e2⟩ := h.fwd _ hu hrow
  obtain ⟨f', e1', e2'⟩ := h'.fwd _ (by simpa using hu) hrow'
  have hs : ({ p with ctrl := p.ctrl ++ [G] } : SPar n m).bare.steps τ (u.map fun r => r ++ [0]) = p.bare.steps τ u := by
    rw [h.steps_eq _ hu, h'.steps_eq _ (by simpa using hu)]
    refine List.ext_getElem (by simp) fun i h1 h2 => ?_
    have hi : i < u.length := by simp at h2; omega
    simp only [List.getElem_zipWith, List.getElem_zip, List.getElem_map]
    rw [hamiltonian_idle _ _ _ _ (hrow _ (List.getElem_mem hi))]
  rw [hs] at e2'
  have := forward_unique e2 e2'
  subst this
  refine ⟨f, e1, e1', fun hm ha => ?_⟩
  obtain ⟨d, a1, a2⟩ := h.deriv hm ha _ hu hrow
  obtain ⟨d', b1, b2⟩ := h'.deriv hm ha _ (by simpa using hu) hrow'
  refine ⟨d, d', _, (List.range τ.length).map fun t =>
    ({ p with ctrl := p.ctrl ++ [G] } : SPar n m).bare.dstep τ (u.map fun r => r ++ [0]) t p.ctrl.length, a1, b1, a2, ?_⟩
  · rw [b2]
    congr 1
    have hl : ({ p with ctrl := p.ctrl ++ [G] } : SPar n m).ctrl.length = p.ctrl.length + 1 := by simp
    rw [hl, List.range_succ, List.map_append, List.map_singleton]
    congr 1
    refine List.map_congr_left fun c hc => List.map_congr_left fun t ht => ?_
    have hc' := List.mem_range.mp hc
    have ht' : t < u.length := by rw [hu]; exact List.mem_range.mp ht
    unfold SPar.dstep
    have g1 : (u.map fun r => r ++ [0]).getD t [] = u[t] ++ [0] := by
      rw [List.getD_eq_getElem _ _ (by simpa using ht'), List.getElem_map]
    have g2 : u.getD t [] = u[t] := List.getD_eq_getElem _ _ ht'
    have g3 : ({ p with ctrl := p.ctrl ++ [G] } : SPar n m).bare.ctrl.getD c 0 = p.bare.ctrl.getD c 0 := by
      show (p.ctrl ++ [G]).getD c 0 = p.ctrl.getD c 0
      rw [List.getD_append _ _ _ _ hc']
    rw [g1, g2, g3]
    show p.L.frechet (_ • -Complex.I • hamiltonian (p.drift.getD t 0) (p.ctrl ++ [G]) (u[t] ++ [0])) _ =
      p.L.frechet (_ • -Complex.I • hamiltonian (p.drift.getD t 0) p.ctrl u[t]) _
    rw [hamiltonian_idle _ _ _ _ (hrow _ (List.getElem_mem ht'))]
    rfl

/-! ### Reversal -/

omit [Fintype n] [DecidableEq n] in
theorem hamiltonian_neg (H₀ : Matrix n n ℂ) (cs : List (Matrix n n ℂ)) (row : List ℝ) :
    hamiltonian (-H₀) cs (row.map fun x => -x) = -hamiltonian H₀ cs row := by
  unfold hamiltonian
  rw [neg_add]
  congr 1
  induction row generalizing cs with
  | nil => simp
  | cons x row ih =>
    cases cs with
    | nil => simp
    | cons H cs =>
      rw [List.map_cons, List.zipWith_cons_cons, List.sum_cons, ih, List.zipWith_cons_cons, List.sum_cons, neg_add]
      push_cast
      rw [neg_smul]

/-- Running through propagators and back again. -/
theorem forward_mirror {init : Matrix n m ℂ} {ps qs : List (Matrix n n ℂ)} {f : List (Matrix n m ℂ)} (hl : qs.length = ps.length)
    (hinv : ∀ i (hi : i < ps.length), qs[ps.length - 1 - i]'(by omega) * ps[i] = 1) (hf : IsForward init (ps ++ qs) f) (k : Nat)
    (hk : k ≤ ps.length) : f[ps.length + k]? = f[ps.length - k]? := by
  induction k with
  | zero => rfl
  | succ k ih =>
    obtain ⟨F, a1, a2⟩ := hf.2.2 (ps.length + k) (by simp; omega)
    obtain ⟨G, b1, b2⟩ := hf.2.2 (ps.length - (k + 1)) (by simp; omega)
    have h0 := ih (by omega)
    rw [show ps.length - k = ps.length - (k + 1) + 1 by omega, b2, a1] at h0
    simp only [Option.some.injEq] at h0
    rw [← Nat.add_assoc, a2, b1, h0, List.getElem_append_right (by omega), List.getElem_append_left (by omega), ← Matrix.mul_assoc]
    have := hinv (ps.length - (k + 1)) (by omega)
    have e : ps.length - 1 - (ps.length - (k + 1)) = ps.length + k - ps.length := by omega
    simp only [e] at this
    rw [this, Matrix.one_mul]

/-- **C115** A pulse followed by its reversal, in opposite order with all Hamiltonians negated, retraces the evolution; in
particular it ends with the initial operator. -/
theorem c115_reversal (p : SPar n m) (τ : List ℝ) (h : Computes p τ) (u : Solver.Pulse) (hu : u.length = τ.length)
    (hrow : ∀ row ∈ u, row.length = p.ctrl.length) :
    let p' : SPar n m := { p with drift := p.drift ++ (p.drift.map fun H => -H).reverse }
    ∃ f f', (readFwd p.bare.cfg (fresh p.bare.cfg τ u)).1 = .ok f ∧
      (readFwd p'.bare.cfg (fresh p'.bare.cfg (τ ++ τ.reverse) (u ++ (u.map fun r => r.map fun x => -x).reverse))).1 = .ok f' ∧
      f'.length = τ.length + τ.length + 1 ∧
      ∀ i ≤ τ.length, f'[i]? = f[i]? ∧ f'[τ.length + τ.length - i]? = f[i]? := by
  intro p'
  have h' : Computes p' (τ ++ τ.reverse) := by
    refine ⟨h.ctrl, by simp [p', h.drift], by simp [h.steps], h.stable, ?_⟩
    rcases h.method with g | g
    · exact Or.inl g
    · refine Or.inr ⟨g.1, g.2.1, g.2.2.1, fun H hH => ?_, g.2.2.2.2⟩
      rcases List.mem_append.mp hH with hH | hH
      · exact g.2.2.2.1 H hH
      · obtain ⟨K, hK, rfl⟩ := List.mem_map.mp (List.mem_reverse.mp hH)
        exact (g.2.2.2.1 K hK).neg
  obtain ⟨f, e1, e2⟩ := h.fwd _ hu hrow
  obtain ⟨f', e1', e2'⟩ := h'.fwd (u ++ (u.map fun r => r.map fun x => -x).reverse) (by simp [hu]) (by
    intro row hr
    rcases List.mem_append.mp hr with hr | hr
    · exact hrow row hr
    · obtain ⟨r, hm, rfl⟩ := List.mem_map.mp (List.mem_reverse.mp hr)
      simpa using hrow r hm)
  have hsl : (p.bare.steps τ u).length = τ.length := steps_length _ _ _
  let g : ℝ → Matrix n n ℂ × List ℝ → Matrix n n ℂ := fun s a =>
    NormedSpace.exp (((s : ℝ) : ℂ) • ((-Complex.I) • hamiltonian a.1 p.ctrl a.2))
  have hs1 := h.steps_eq u hu
  have hs : p'.bare.steps (τ ++ τ.reverse) (u ++ (u.map fun r => r.map fun x => -x).reverse) = p.bare.steps τ u ++
      List.zipWith g τ.reverse ((p.drift.map fun H => -H).reverse.zip (u.map fun r => r.map fun x => -x).reverse) := by
    rw [h'.steps_eq _ (by simp [hu]), hs1]
    show List.zipWith g (τ ++ τ.reverse) ((p.drift ++ (p.drift.map fun H => -H).reverse).zip _) = _
    rw [List.zip_append (by rw [h.drift, hu]), List.zipWith_append (by simp [h.drift, hu])]
  rw [hs] at e2'
  have hql : (List.zipWith g τ.reverse ((p.drift.map fun H => -H).reverse.zip (u.map fun r => r.map fun x => -x).reverse)).length =
      (p.bare.steps τ u).length := by
    rw [hsl]; simp [h.drift, hu]
  have hmir := forward_mirror hql ?_ e2'
  · have hlow : ∀ i ≤ τ.length, f'[i]? = f[i]? := by
      intro i
      induction i with
      | zero => intro _; rw [e2.2.1, e2'.2.1]
      | succ i ih =>
        intro hi
        obtain ⟨F, a1, a2⟩ := e2.2.2 i (by omega)
        obtain ⟨F', b1, b2⟩ := e2'.2.2 i (by rw [List.length_append]; omega)
        have := ih (by omega)
        rw [a1, b1] at this
        simp only [Option.some.injEq] at this
        rw [a2, b2, this, List.getElem_append_left (by omega)]
    refine ⟨f, f', e1, e1', ?_, fun i hi => ⟨hlow i hi, ?_⟩⟩
    · rw [e2'.1, List.length_append, hql, hsl]
    · have := hmir (τ.length - i) (by omega)
      rw [hsl] at this
      rw [show τ.length + τ.length - i = τ.length + (τ.length - i) by omega, this, show τ.length - (τ.length - i) = i by omega,
        hlow i hi]
  · intro i hi
    have hi' : i < τ.length := by rw [← hsl]; exact hi
    have hd := h.drift
    rw [List.getElem_zipWith, List.getElem_zip, List.getElem_reverse, List.getElem_reverse, List.getElem_reverse, List.getElem_map,
      List.getElem_map]
    have e3 : (p.bare.steps τ u)[i] = g τ[i] (p.drift[i], u[i]) := by
      have : (p.bare.steps τ u)[i]? = (List.zipWith g τ (p.drift.zip u))[i]? := by rw [hs1]
      rw [List.getElem?_eq_getElem hi, List.getElem?_eq_getElem (by simp; omega)] at this
      simpa using this
    rw [e3]
    simp only [hsl, List.length_map, hd, hu, show τ.length - 1 - (τ.length - 1 - i) = i by omega, g]
    rw [hamiltonian_neg, smul_neg, smul_neg]
    have := Matrix.exp_add_of_commute (-(((τ[i] : ℝ) : ℂ) • ((-Complex.I) • hamiltonian p.drift[i] p.ctrl u[i])))
      (((τ[i] : ℝ) : ℂ) • ((-Complex.I) • hamiltonian p.drift[i] p.ctrl u[i])) (Commute.neg_left (Commute.refl _))
    rw [← this, neg_add_cancel, NormedSpace.exp_zero]

/-! ### Cases of C115 -/

namespace Ex115

/-- A drifting qubit with two controls, exponentials by `eigh`. -/
noncomputable def par (L : Lapack (Fin 2)) (d : List (Matrix (Fin 2) (Fin 2) ℂ)) : SPar (Fin 2) (Fin 2) :=
  ⟨L, .spectral, true, true, .none, 1, d, [!![0, 1; 1, 0], !![0, -Complex.I; Complex.I, 0]], idTf, id, idAmp⟩

def Z : Matrix (Fin 2) (Fin 2) ℂ := !![1, 0; 0, -1]

theorem Z_hermitian : Z.IsHermitian := by
  ext i j; fin_cases i <;> fin_cases j <;> simp [Z]

theorem computes {L : Lapack (Fin 2)} (h : L.EighOk) (d : List (Matrix (Fin 2) (Fin 2) ℂ)) (hd : ∀ H ∈ d, H.IsHermitian) (τ : List ℝ)
    (hτ : τ ≠ []) (hl : d.length = τ.length) : Computes (par L d) τ :=
  ⟨by simp [par], hl, hτ, Or.inl ⟨rfl, rfl⟩, Or.inr ⟨rfl, rfl, h, hd, Ex93.ctrl_hermitian L⟩⟩

/-- A pulse with one step, one with two steps, and a step without duration between them. -/
example : ∃ (L : Lapack (Fin 2)) (f₁ f₂ f f' : List (Matrix (Fin 2) (Fin 2) ℂ)) (U₁ U₂ : Matrix (Fin 2) (Fin 2) ℂ),
    (readFwd (par L [Z]).bare.cfg (fresh (par L [Z]).bare.cfg [3] [[1, 2]])).1 = .ok f₁ ∧
    (readFwd (par L [0, Z]).bare.cfg (fresh (par L [0, Z]).bare.cfg [1, 2] [[3, 4], [5, 6]])).1 = .ok f₂ ∧
    (readFwd (par L [Z, 0, Z]).bare.cfg (fresh (par L [Z, 0, Z]).bare.cfg [3, 1, 2] [[1, 2], [3, 4], [5, 6]])).1 = .ok f ∧
    (readFwd (par L [Z, Z, 0, Z]).bare.cfg (fresh (par L [Z, Z, 0, Z]).bare.cfg [3, 0, 1, 2] [[1, 2], [7, 8], [3, 4], [5, 6]])).1 = .ok f' ∧
    f₁.getLast? = some U₁ ∧ f₂.getLast? = some U₂ ∧ f.getLast? = some (U₂ * U₁) ∧ f'[4]? = f[3]? ∧ f'[1]? = f'[2]? := by
  obtain ⟨L, hE, -, -, -⟩ := lapack_exists (Fin 2)
  have h0 : (0 : Matrix (Fin 2) (Fin 2) ℂ).IsHermitian := by simp
  obtain ⟨f₁, f₂, f, U₁, U₂, e1, e2, e3, e4, e5, e6⟩ := c115_product (par L []) rfl [Z] [0, Z] [3] [1, 2]
    (computes hE _ (by simpa using Z_hermitian) _ (by simp) rfl) (computes hE _ (by simpa using Z_hermitian) _ (by simp) rfl)
    [[1, 2]] [[3, 4], [5, 6]] rfl rfl (by simp [par]) (by simp [par])
  obtain ⟨g, f', k1, k2, k3, k4⟩ := c115_zero_step (par L []) [Z] [0, Z] Z [3] [1, 2] [[1, 2]] [[3, 4], [5, 6]] [7, 8]
    (computes hE _ (by simpa using Z_hermitian) _ (by simp) rfl) (fun _ => Z_hermitian) rfl rfl rfl (by simp [par]) rfl
  have hg : g = f := by
    have : Except.ok (ε := PyErr) g = .ok f := k1.symm.trans e3
    simpa using this
  subst hg
  refine ⟨L, f₁, f₂, g, f', U₁, U₂, e1, e2, k1, k2, e4, e5, e6, k4 3 (by simp), ?_⟩
  rw [k3 1 (by simp), ← k4 1 (by simp)]

/-- The controls exchanged. -/
example (u v : Fin 2 → ℝ) : ∃ (L : Lapack (Fin 2)) (f : List (Matrix (Fin 2) (Fin 2) ℂ)) (a b : List (Matrix (Fin 2) (Fin 2) ℂ))
    (d d' : List (List (Option (Option (Matrix (Fin 2) (Fin 2) ℂ))))),
    let p := { Ex93.par L with drift := [Z, Z] }
    let p' := { p with ctrl := [!![0, -Complex.I; Complex.I, 0], !![0, 1; 1, 0]] }
    (readFwd p.bare.cfg (fresh p.bare.cfg [1, 2] [[u 0, u 1], [v 0, v 1]])).1 = .ok f ∧
    (readFwd p'.bare.cfg (fresh p'.bare.cfg [1, 2] [[u 1, u 0], [v 1, v 0]])).1 = .ok f ∧
    (readDeriv p.bare.cfg (fresh p.bare.cfg [1, 2] [[u 0, u 1], [v 0, v 1]])).1 = .ok d ∧
    (readDeriv p'.bare.cfg (fresh p'.bare.cfg [1, 2] [[u 1, u 0], [v 1, v 0]])).1 = .ok d' ∧
    plainDerivs d = .ok [a, b] ∧ plainDerivs d' = .ok [b, a] := by
  obtain ⟨L, -, -, hE, hF⟩ := lapack_exists (Fin 2)
  have hx := Ex93.par_exact hE hF
  have hc : Computes { Ex93.par L with drift := [Z, Z] } [1, 2] := ⟨hx.ctrl, rfl, by simp, hx.stable, Or.inl ⟨rfl, hE⟩⟩
  obtain ⟨f, e1, e2, e3⟩ := c115_order { Ex93.par L with drift := [Z, Z] }
    (![!![0, 1; 1, 0], !![0, -Complex.I; Complex.I, 0]] : Fin 2 → Matrix (Fin 2) (Fin 2) ℂ) (by simp [Ex93.par, List.ofFn_succ])
    (Equiv.swap 0 1) [1, 2] hc [u, v] rfl
  obtain ⟨d, d', D, k1, k2, k3, k4⟩ := e3 rfl rfl
  refine ⟨L, f, D 0, D 1, d, d', ?_⟩
  simp only [List.ofFn_succ, List.ofFn_zero, List.map_cons, List.map_nil, Function.comp, Fin.succ_zero_eq_one, Equiv.swap_apply_left,
    Equiv.swap_apply_right, Matrix.cons_val_zero, Matrix.cons_val_one] at e1 e2 k1 k2 k3 k4
  exact ⟨e1, e2, k1, k2, k3, k4⟩

/-- A control which is switched off, and a spin echo. -/
example : ∃ (L : Lapack (Fin 2)) (f f' : List (Matrix (Fin 2) (Fin 2) ℂ)),
    (readFwd (par L [Z, Z]).bare.cfg (fresh (par L [Z, Z]).bare.cfg [1, 2] [[3, 4], [5, 6]])).1 = .ok f ∧
    (readFwd { par L [Z, Z] with ctrl := (par L []).ctrl ++ [Z] }.bare.cfg
      (fresh { par L [Z, Z] with ctrl := (par L []).ctrl ++ [Z] }.bare.cfg [1, 2] [[3, 4, 0], [5, 6, 0]])).1 = .ok f ∧
    (readFwd (par L [Z, Z, -Z, -Z]).bare.cfg (fresh (par L [Z, Z, -Z, -Z]).bare.cfg [1, 2, 2, 1] [[3, 4], [5, 6], [-5, -6], [-3, -4]])).1 =
      .ok f' ∧ f'[4]? = some 1 := by
  obtain ⟨L, hE, -, -, -⟩ := lapack_exists (Fin 2)
  have hc := computes hE [Z, Z] (by simpa using Z_hermitian) [1, 2] (by simp) rfl
  obtain ⟨f, e1, e2, -⟩ := c115_idle (par L [Z, Z]) Z (fun _ => Z_hermitian) [1, 2] hc [[3, 4], [5, 6]] rfl (by simp [par])
  obtain ⟨g, f', k1, k2, k3, k4⟩ := c115_reversal (par L [Z, Z]) [1, 2] hc [[3, 4], [5, 6]] rfl (by simp [par])
  have hg : f = g := by
    have : Except.ok (ε := PyErr) f = .ok g := e1.symm.trans k1
    simpa using this
  subst hg
  obtain ⟨-, a2, -⟩ : IsForward _ _ f := by
    obtain ⟨f'', b1, b2⟩ := hc.fwd [[3, 4], [5, 6]] rfl (by simp [par])
    have : Except.ok (ε := PyErr) f = .ok f'' := e1.symm.trans b1
    simp only [Except.ok.injEq] at this
    rw [this]
    exact b2
  exact ⟨L, f, f', e1, e2, k2, ((k4 0 (by simp)).2.trans a2 : f'[4]? = some (1 : Matrix (Fin 2) (Fin 2) ℂ))⟩

end Ex115

end Verif.Sim
