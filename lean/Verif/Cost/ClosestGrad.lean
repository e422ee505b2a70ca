import Verif.Cost.Solver

/-!
# C45: the closest unitary and the gradient

The gradient never passes `map_to_closest_unitary` on, so for a truncated propagator it is the gradient of another cost.
The witness is a rotated qubit of which only state 0 is a computational state.
-/

namespace Verif.Cost
open Verif Verif.Operator Verif.Solver Matrix

/-- A rotation of the qubit by the angle with cosine 3/5. -/
noncomputable def rot0 : Matrix (Fin 2) (Fin 2) ℂ := !![3 / 5, -4 / 5; 4 / 5, 3 / 5]

/-- The rotated qubit, turned further by `x`. -/
noncomputable def rotP (x : ℝ) : Matrix (Fin 2) (Fin 2) ℂ :=
  !![3 / 5 * (Real.cos x : ℂ) - 4 / 5 * (Real.sin x : ℂ), -4 / 5 * (Real.cos x : ℂ) - 3 / 5 * (Real.sin x : ℂ);
     4 / 5 * (Real.cos x : ℂ) + 3 / 5 * (Real.sin x : ℂ), 3 / 5 * (Real.cos x : ℂ) - 4 / 5 * (Real.sin x : ℂ)]

/-- Its derivative at `x = 0`. -/
noncomputable def rotD : Matrix (Fin 2) (Fin 2) ℂ := !![-4 / 5, -3 / 5; 3 / 5, -4 / 5]

theorem rotP_zero : rotP 0 = rot0 := by
  ext i j; fin_cases i <;> fin_cases j <;> simp [rotP, rot0]

theorem rotP_deriv : MatDeriv rotP rotD 0 := by
  have hc : HasDerivAt (fun x : ℝ => (Real.cos x : ℂ)) 0 0 := by
    have := (Real.hasDerivAt_cos 0).ofReal_comp
    simpa using this
  have hs : HasDerivAt (fun x : ℝ => (Real.sin x : ℂ)) 1 0 := by
    have := (Real.hasDerivAt_sin 0).ofReal_comp
    simpa using this
  have key : ∀ a b : ℂ, HasDerivAt (fun x : ℝ => a * (Real.cos x : ℂ) + b * (Real.sin x : ℂ)) b 0 := by
    intro a b
    refine ((hc.const_mul a).fun_add (hs.const_mul b)).congr_deriv ?_
    simp
  intro i j
  fin_cases i <;> fin_cases j
  · exact ((key (3 / 5) (-4 / 5)).congr_of_eventuallyEq (Filter.Eventually.of_forall fun x => by simp [rotP]; ring))
  · exact ((key (-4 / 5) (-3 / 5)).congr_of_eventuallyEq (Filter.Eventually.of_forall fun x => by simp [rotP]; ring))
  · exact ((key (4 / 5) (3 / 5)).congr_of_eventuallyEq (Filter.Eventually.of_forall fun x => by simp [rotP]))
  · exact ((key (3 / 5) (-4 / 5)).congr_of_eventuallyEq (Filter.Eventually.of_forall fun x => by simp [rotP]; ring))

/-- The rotations are unitary: the witness is a closed evolution. -/
theorem rotP_unitary (x : ℝ) : rotP x ∈ Matrix.unitaryGroup (Fin 2) ℂ := by
  have h : ((Real.cos x : ℂ)) ^ 2 + (Real.sin x : ℂ) ^ 2 = 1 := by
    have := Real.cos_sq_add_sin_sq x
    exact_mod_cast this
  rw [Matrix.mem_unitaryGroup_iff]
  have c1 : (starRingEnd ℂ) (Real.cos x : ℂ) = Real.cos x := Complex.conj_ofReal _
  have c2 : (starRingEnd ℂ) (Real.sin x : ℂ) = Real.sin x := Complex.conj_ofReal _
  ext i j
  fin_cases i <;> fin_cases j <;>
    simp only [rotP, Matrix.star_eq_conjTranspose, Matrix.mul_apply, Fin.sum_univ_two, Matrix.conjTranspose_apply, Fin.mk_one,
      Fin.zero_eta, Fin.isValue, Matrix.of_apply, Matrix.cons_val', Matrix.cons_val_zero, Matrix.cons_val_one,
      Matrix.cons_val_fin_one, RCLike.star_def, map_sub, map_add, map_mul, map_div₀, map_neg, Complex.conj_ofNat, c1, c2,
      Matrix.one_apply_eq, ne_eq, zero_ne_one, one_ne_zero, not_false_eq_true, Matrix.one_apply_ne]
  · linear_combination h
  · ring
  · ring
  · linear_combination h

/-- What the solver returns for the witness: one time step, one control. -/
noncomputable def rotTrace : Trace (Fin 2) (Fin 2) := ⟨[1, rot0], [[rotD]], [1, rot0]⟩

theorem rotTrace_of : rotTrace.Of 1 [rot0] 1 := by
  refine ⟨⟨rfl, rfl, fun i hi => ?_⟩, ⟨rfl, rfl, fun i hi => ?_⟩, rfl, ?_⟩
  · simp only [List.length_singleton, Nat.lt_one_iff] at hi
    subst hi
    exact ⟨1, rfl, by simp [rotTrace]⟩
  · simp only [List.length_singleton, Nat.lt_one_iff] at hi
    subst hi
    exact ⟨1, rfl, by simp [rotTrace]⟩
  · simp [rotTrace]

theorem rot_sweep : Sweep 1 [rot0] 0 rotP rotD (fun x => [1, rotP x]) := by
  refine ⟨fun x => ⟨rfl, rfl, fun i hi => ?_⟩, by simp [rotP_zero], rotP_deriv⟩
  have hi' : i = 0 := by simpa using hi
  subst hi'
  exact ⟨1, rfl, by simp⟩

/-- One by one unitaries have modulus one. -/
theorem norm_of_unitary_one {A : Matrix (Fin 1) (Fin 1) ℂ} (h : A ∈ Matrix.unitaryGroup (Fin 1) ℂ) : ‖A 0 0‖ = 1 := by
  have h1 := congrFun (congrFun (conjTranspose_mul_unitary h) 0) 0
  rw [Matrix.mul_apply, Fin.sum_univ_one, Matrix.conjTranspose_apply, Matrix.one_apply_eq] at h1
  have h2 := congrArg norm h1
  rw [norm_mul, norm_star, norm_one] at h2
  nlinarith [norm_nonneg (A 0 0)]

/-- `closest_unitary` from singular value decompositions of every size. -/
def closestOf (svd : ∀ k, Matrix (Fin k) (Fin k) ℂ → Svd (Fin k)) : Closest := fun k => closestUnitary (svd k)

theorem rot_cost (svd : ∀ k, Matrix (Fin k) (Fin k) ℂ → Svd (Fin k))
    (h : ∀ A : Matrix (Fin 1) (Fin 1) ℂ, SvdOk A (svd 1 A)) (U : Matrix (Fin 2) (Fin 2) ℂ) :
    entFid (closestOf svd) (some [0]) (1 : Matrix (Fin 1) (Fin 1) ℂ) U true = 1 := by
  have hd : dim (n := Fin 2) (some [0]) = 1 := by
    show ((Fintype.card (Fin 1) : ℕ) : ℝ) = 1
    simp
  have h1 := norm_of_unitary_one (c24_unitary (svd 1) (U.submatrix [(0 : Fin 2)].get [(0 : Fin 2)].get) (h _))
  unfold entFid
  rw [hd]
  have h2 : truncTo (closestOf svd) (some [(0 : Fin 2)]) true U =
      closestUnitary (svd 1) (U.submatrix [(0 : Fin 2)].get [(0 : Fin 2)].get) := rfl
  have h3 : (Matrix.conjTranspose (1 : Matrix (Fin 1) (Fin 1) ℂ) *
      closestUnitary (svd 1) (U.submatrix [(0 : Fin 2)].get [(0 : Fin 2)].get)).trace =
      closestUnitary (svd 1) (U.submatrix [(0 : Fin 2)].get [(0 : Fin 2)].get) 0 0 := by
    rw [Matrix.conjTranspose_one, Matrix.one_mul, Matrix.trace_fin_one]
  have h4 : ‖(Matrix.conjTranspose (1 : Matrix (Fin 1) (Fin 1) ℂ) *
      closestUnitary (svd 1) (U.submatrix [(0 : Fin 2)].get [(0 : Fin 2)].get)).trace‖ ^ 2 / (1 : ℝ) / 1 = 1 := by
    rw [h3, h1]; norm_num
  exact h4

theorem rot_derivEntFid (cl : Closest) :
    ∃ g, derivEntFid cl (some [0]) (1 : Matrix (Fin 1) (Fin 1) ℂ) rotTrace.fwd rotTrace.dP rotTrace.rev false = .ok g ∧
      entry g 0 0 = some (-24 / 25) := by
  obtain ⟨g, h1, -, h3⟩ := derivEntFid_ok cl (some [(0 : Fin 2)]) (by simp) (1 : Matrix (Fin 1) (Fin 1) ℂ)
    (by norm_num : 0 < 1) rotTrace_of
  refine ⟨g, h1, ?_⟩
  rw [h3 0 0 rotP rotD _ 1 1 rot_sweep rfl rfl rfl]
  have hd : dim (n := Fin 2) (some [0]) = 1 := by
    show ((Fintype.card (Fin 1) : ℕ) : ℝ) = 1
    simp
  have e : ∀ A : Matrix (Fin 2) (Fin 2) ℂ, ((1 * A * 1).submatrix [(0 : Fin 2)].get [(0 : Fin 2)].get *
      Matrix.conjTranspose (1 : Matrix (Fin 1) (Fin 1) ℂ) : Matrix (Fin 1) (Fin 1) ℂ).trace = A 0 0 := by
    intro A
    rw [Matrix.conjTranspose_one, Matrix.mul_one, Matrix.trace_fin_one, Matrix.one_mul, Matrix.mul_one]
    rfl
  rw [hd, rotP_zero]
  have h4 : (2 : ℝ) / 1 / 1 * (star (rot0 0 0) * rotD 0 0).re = -24 / 25 := by
    have : star (rot0 0 0) * rotD 0 0 = ((-12 / 25 : ℝ) : ℂ) := by
      simp [rot0, rotD]; norm_num
    rw [this, Complex.ofReal_re]; norm_num
  rw [← h4, ← e rot0, ← e rotD]
  rfl

/-- **C45** (negation) With `map_to_closest_unitary` the cost of the witness is the constant 0, whatever the singular
value decomposition, but the gradient returned is 24/25: it is not the gradient of that cost. -/
theorem c45_violated (svd : ∀ k, Matrix (Fin k) (Fin k) ℂ → Svd (Fin k))
    (h : ∀ A : Matrix (Fin 1) (Fin 1) ℂ, SvdOk A (svd 1 A)) :
    (∀ x, opCosts (closestOf svd) (some [0]) (1 : Matrix (Fin 1) (Fin 1) ℂ) true [1, rotP x] = .ok 0) ∧
      ∃ g, opGrad (closestOf svd) (some [0]) (1 : Matrix (Fin 1) (Fin 1) ℂ) true rotTrace.fwd rotTrace.dP rotTrace.rev = .ok g ∧
        entry g 0 0 = some (24 / 25) ∧ ¬HasDerivAt (fun _ : ℝ => (0 : ℝ)) (24 / 25) 0 := by
  refine ⟨fun x => ?_, ?_⟩
  · unfold opCosts
    rw [last_ok (a := rotP x) rfl]
    simp only [bind, Except.bind]
    rw [rot_cost svd h]
    norm_num
    rfl
  · obtain ⟨g, h1, h2⟩ := rot_derivEntFid (closestOf svd)
    refine ⟨negTable g, ?_, ?_, fun hd => ?_⟩
    · unfold opGrad; rw [h1]; rfl
    · rw [entry_neg h2]; norm_num
    · have := hd.unique (hasDerivAt_const 0 (0 : ℝ))
      norm_num at this

/-- **C45** (partial) Without computational states the truncation is the identity and the gradient is the gradient of
the cost also if the map to the closest unitary is requested; without the map see `c44_gradient`. Missing: the map
together with computational states (`c45_violated`). -/
theorem c45_no_truncation_partial {n : Type} [Fintype n] [DecidableEq n] (cl : Closest) (T init : Matrix n n ℂ)
    (ps : List (Matrix n n ℂ)) (hps : ps ≠ []) (nc : Nat) (hnc : 0 < nc) (tr : Trace n n) (htr : tr.Of init ps nc) :
    ∃ g, opGrad cl (n := n) none T true tr.fwd tr.dP tr.rev = .ok g ∧ Rect g ps.length nc ∧
      ∀ t c P D fwds, Sweep init ps t P D fwds → tr.derivAt t c = some D →
        ∃ (G : ℝ) (cost : ℝ → ℝ), entry g t c = some G ∧ (∀ x, opCosts cl (n := n) none T true (fwds x) = .ok (cost x)) ∧
          HasDerivAt cost G 0 := by
  obtain ⟨g, h1, h2, h3⟩ := c44_gradient cl (n := n) none (by simp) true (Or.inr rfl) T init ps hps nc hnc tr htr
  refine ⟨g, h1, h2, fun t c P D fwds hs hD => ?_⟩
  obtain ⟨G, cost, k1, k2, -, k4⟩ := h3 t c P D fwds hs hD
  exact ⟨G, cost, k1, k2, k4⟩

/-- **C48** (negation) The same for the noise infidelity with one trace. -/
theorem c48_violated (svd : ∀ k, Matrix (Fin k) (Fin k) ℂ → Svd (Fin k))
    (h : ∀ A : Matrix (Fin 1) (Fin 1) ℂ, SvdOk A (svd 1 A)) :
    (∀ x, noiseCosts (closestOf svd) (some [0]) (1 : Matrix (Fin 1) (Fin 1) ℂ) true false [1, rotP x] [[1, rotP x]] = .ok 0) ∧
      ∃ g, noiseGrad (closestOf svd) (some [0]) (1 : Matrix (Fin 1) (Fin 1) ℂ) true false 1 1 rotTrace [rotTrace] = .ok g ∧
        entry g 0 0 = some (24 / 25) := by
  refine ⟨fun x => ?_, ?_⟩
  · unfold noiseCosts effTarget
    simp only [Bool.false_eq_true, if_false, pure, Except.pure, bind, Except.bind, List.map_cons, List.map_nil]
    rw [last_ok (a := rotP x) rfl]
    simp only
    rw [rot_cost svd h]
    simp [allOk, mean, bind, Except.bind, pure, Except.pure]
  · obtain ⟨g, h1, h2⟩ := rot_derivEntFid (closestOf svd)
    refine ⟨meanTable 1 1 [negTable g], ?_, ?_⟩
    · unfold noiseGrad effTarget
      simp only [Bool.false_eq_true, if_false, pure, Except.pure, bind, Except.bind, List.map_cons, List.map_nil, h1]
      rfl
    · rw [entry_meanTable _ _ _ (by norm_num) (by norm_num)]
      simp only [List.map_cons, List.map_nil, entry_getD (entry_neg h2), mean, List.sum_cons, List.sum_nil, List.length_singleton]
      norm_num

/-- Singular value decompositions of one by one matrices exist: `c45_violated` and `c48_violated` are not vacuous. -/
noncomputable def svdOne : ∀ k, Matrix (Fin k) (Fin k) ℂ → Svd (Fin k)
  | 1, A => ⟨Matrix.of fun _ _ => if A 0 0 = 0 then 1 else A 0 0 / ‖A 0 0‖, fun _ => ‖A 0 0‖, 1⟩
  | _, _ => ⟨1, 0, 1⟩

example (A : Matrix (Fin 1) (Fin 1) ℂ) : SvdOk A (svdOne 1 A) := by
  refine ⟨?_, Submonoid.one_mem _, fun _ => norm_nonneg _, ?_⟩
  · rw [Matrix.mem_unitaryGroup_iff']
    ext i j
    fin_cases i; fin_cases j
    simp only [svdOne, Matrix.star_eq_conjTranspose, Matrix.mul_apply, Finset.univ_unique, Finset.sum_singleton,
      Matrix.conjTranspose_apply, Matrix.of_apply]
    by_cases h : A 0 0 = 0
    · simp [h]
    · rw [if_neg h]
      have h1 : star (A 0 0) * A 0 0 = ((‖A 0 0‖ ^ 2 : ℝ) : ℂ) := by
        rw [mul_comm, ← Complex.normSq_eq_norm_sq]; exact Complex.mul_conj _
      have h2 : (‖A 0 0‖ : ℂ) ≠ 0 := by exact_mod_cast norm_ne_zero_iff.mpr h
      rw [star_div₀, div_mul_div_comm, h1]
      simp only [Complex.star_def, Complex.conj_ofReal]
      push_cast
      field_simp
      rfl
  · ext i j
    fin_cases i; fin_cases j
    simp only [svdOne, Matrix.mul_one, Matrix.mul_diagonal, Matrix.of_apply]
    by_cases h : A 0 0 = 0
    · simp [h]
    · have h2 : (‖A 0 0‖ : ℂ) ≠ 0 := by exact_mod_cast norm_ne_zero_iff.mpr h
      rw [if_neg h]
      show A 0 0 = _
      field_simp

/-- Non-vacuity of C43: the fidelity between the identity and the rotated qubit is 9/25. -/
example : entFid (fun _ A => A) (n := Fin 2) none 1 rot0 false = 9 / 25 := by
  have hd : dim (n := Fin 2) none = 2 := by
    show ((Fintype.card (Fin 2) : ℕ) : ℝ) = 2
    simp
  unfold entFid
  rw [hd]
  have : (Matrix.conjTranspose (1 : Matrix (Fin 2) (Fin 2) ℂ) * rot0).trace = ((6 / 5 : ℝ) : ℂ) := by
    rw [Matrix.conjTranspose_one, Matrix.one_mul, Matrix.trace_fin_two]
    simp [rot0]; norm_num
  show ‖(Matrix.conjTranspose (1 : Matrix (Fin 2) (Fin 2) ℂ) * rot0).trace‖ ^ 2 / 2 / 2 = 9 / 25
  rw [this, Complex.norm_real]
  norm_num

example : 0 ≤ entFid (fun _ A => A) (some [(1 : Fin 2)]) (1 : Matrix (Fin 1) (Fin 1) ℂ) (rotP 1) false ∧
    entFid (fun _ A => A) (some [(1 : Fin 2)]) (1 : Matrix (Fin 1) (Fin 1) ℂ) (rotP 1) false ≤ 1 := by
  have := c43_truncated (fun _ A => A) [(1 : Fin 2)] (by simp) (by simp) (1 : Matrix (Fin 1) (Fin 1) ℂ) (Submonoid.one_mem _)
    (rotP 1) (rotP_unitary 1)
  exact ⟨this.1, this.2.2⟩

/-- C44 applies to the rotated qubit with computational state 1. -/
example : ∃ g G, ∃ cost : ℝ → ℝ, opGrad (fun _ A => A) (some [(1 : Fin 2)]) (1 : Matrix (Fin 1) (Fin 1) ℂ) false rotTrace.fwd rotTrace.dP
    rotTrace.rev = .ok g ∧ entry g 0 0 = some G ∧ HasDerivAt cost G 0 := by
  obtain ⟨g, h1, -, h3⟩ := c44_gradient (fun _ A => A) (some [(1 : Fin 2)]) (by simp) false (Or.inl rfl)
    (1 : Matrix (Fin 1) (Fin 1) ℂ) 1 [rot0] (by simp) 1 (by norm_num) rotTrace rotTrace_of
  obtain ⟨G, cost, k1, -, -, k4⟩ := h3 0 0 _ _ _ rot_sweep rfl
  exact ⟨g, G, cost, h1, k1, k4⟩

/-- C47 applies to two traces. -/
example : ∃ c, liouvilleCosts (some [(1 : Fin 2), 0]) (1 : Matrix (Fin 2) (Fin 2) ℂ) [[1, rotP 1], [1, rotP 2]] = .ok c := by
  obtain ⟨c, h, -⟩ := c47_liouville (fun _ A => A) (some [(1 : Fin 2), 0]) (by simp) (1 : Matrix (Fin 2) (Fin 2) ℂ) []
    [[1, rotP 1], [1, rotP 2]] (by simp) (by simp)
  exact ⟨c, h⟩

/-- C48 applies: the noiseless evolution and one trace, systematic errors neglected. -/
example : ∃ g G, ∃ cost : ℝ → ℝ, noiseGrad (fun _ A => A) (some [(1 : Fin 2)]) (1 : Matrix (Fin 1) (Fin 1) ℂ) false true 1 1 rotTrace
    [rotTrace] = .ok g ∧ entry g 0 0 = some G ∧ HasDerivAt cost G 0 ∧
      ∀ x, noiseCosts (fun _ A => A) (some [(1 : Fin 2)]) (1 : Matrix (Fin 1) (Fin 1) ℂ) false true [1, rotP x] [[1, rotP x]] =
        .ok (cost x) := by
  obtain ⟨g, h1, -, h3⟩ := c48_gradient_partial (fun _ A => A) (some [(1 : Fin 2)]) (by simp) false true (Or.inl rfl)
    (1 : Matrix (Fin 1) (Fin 1) ℂ) 1 1 1 (by norm_num) rotTrace [rot0] rotTrace_of rfl [rotTrace] [[rot0]]
    (fun k hk ps hp => by
      have hk' : k = 0 := by simpa using hk
      subst hk'
      simp only [List.getElem?_cons_zero, Option.some.injEq] at hp
      subst hp
      exact ⟨rotTrace_of, rfl⟩) rfl
  obtain ⟨G, cost, k1, k2, k3⟩ := h3 0 0 (fun x => [1, rotP x]) (fun x => [[1, rotP x]])
    ⟨⟨rotP, rotD, rot_sweep, rfl⟩, ⟨rfl, fun _ => rfl⟩, fun k hk ps hp => by
      have hk' : k = 0 := by simpa using hk
      subst hk'
      simp only [List.getElem?_cons_zero, Option.some.injEq] at hp
      subst hp
      exact ⟨rotP, rotD, rot_sweep, rfl⟩⟩
  exact ⟨g, G, cost, h1, k1, k3, k2⟩

end Verif.Cost
