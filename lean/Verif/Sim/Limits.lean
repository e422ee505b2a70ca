import Verif.Sim.Sequence
import Verif.Cost.Sensitivity

/-!
# C125: what no pulse can reach

Lower bounds for `OperationInfidelity` (cost_functions.py:1171-1275) which hold for every pulse: a pulse that is too short or too
weak, and Hamiltonians with a conserved quantity which the target does not conserve.
-/

namespace Verif.Sim
open Verif Verif.Transfer Verif.Operator Verif.Solver Verif.Cost Matrix

section
open scoped Matrix.Norms.L2Operator
variable {n : Type} [Fintype n] [DecidableEq n]

/-! ## Specification -/

/-- The Hamiltonians of the time steps of a gate, with their durations. -/
def Gate.hamiltonians {cs : Option (List n)} (ctrl : List (Matrix n n ℂ)) (g : Gate n cs) : List (ℝ × Matrix n n ℂ) :=
  List.zipWith (fun s a => (s, hamiltonian a.1 ctrl a.2)) g.times (g.drift.zip g.amps)

/-- The operator of an evolution with piecewise constant Hamiltonians, the first one acting first. -/
noncomputable def evolve (l : List (ℝ × Matrix n n ℂ)) : Matrix n n ℂ :=
  l.foldl (fun F x => NormedSpace.exp (((x.1 : ℝ) : ℂ) • ((-Complex.I) • x.2)) * F) 1

/-- Squared Hilbert-Schmidt norm. -/
noncomputable def sqNorm (X : Matrix n n ℂ) : ℝ := ∑ i, ∑ j, ‖X i j‖ ^ 2

/-! ## The operator of a gate -/

/-- The operator of a gate, and its infidelity. -/
theorem Gate.Ok.evolve {cs : Option (List n)} {p : SPar n n} (hi : p.init = 1) (hc : ∀ H ∈ p.ctrl, H.IsHermitian) {g : Gate n cs}
    (h : g.Ok p) (cl : Closest) (mcu : Bool) :
    Sim.evolve (g.hamiltonians p.ctrl) ∈ Matrix.unitaryGroup n ℂ ∧
      g.infidelity cl mcu p = .ok (1 - entFid cl cs g.target (Sim.evolve (g.hamiltonians p.ctrl)) mcu) := by
  obtain ⟨f, U, e1, e2, e3, e4⟩ := h.value hi hc cl mcu
  obtain ⟨f', e1', e5⟩ := h.computes.fwd g.amps h.rows h.cols
  rw [e1] at e1'
  obtain rfl := Except.ok.inj e1'
  have hU : U = Sim.evolve (g.hamiltonians p.ctrl) := by
    have h5 := isForward_unique e5 _ le_rfl
    rw [List.getLast?_eq_getElem?, e5.1, Nat.add_sub_cancel, h5, List.take_length, h.computes.steps_eq _ h.rows] at e2
    rw [← Option.some.inj e2]
    show List.foldl _ p.init _ = _
    rw [hi]
    unfold Sim.evolve Gate.hamiltonians
    rw [← List.map_uncurry_zip_eq_zipWith, ← List.map_uncurry_zip_eq_zipWith, List.foldl_map, List.foldl_map]
    rfl
  rw [← hU]
  exact ⟨e3, e4⟩

theorem Gate.Ok.hamiltonians {cs : Option (List n)} {p : SPar n n} (hc : ∀ H ∈ p.ctrl, H.IsHermitian) {g : Gate n cs} (h : g.Ok p) :
    ∀ x ∈ g.hamiltonians p.ctrl, x.2.IsHermitian := by
  intro x hx
  unfold Gate.hamiltonians at hx
  rw [← List.map_uncurry_zip_eq_zipWith] at hx
  obtain ⟨⟨s, d, a⟩, ha, rfl⟩ := List.mem_map.mp hx
  exact hamiltonian_hermitian (h.hermitian _ (List.of_mem_zip (List.of_mem_zip ha).2).1) hc _

theorem evolve_append (l : List (ℝ × Matrix n n ℂ)) (x : ℝ × Matrix n n ℂ) :
    evolve (l ++ [x]) = NormedSpace.exp (((x.1 : ℝ) : ℂ) • ((-Complex.I) • x.2)) * evolve l := by
  simp [evolve]

theorem step_unitary {s : ℝ} {H : Matrix n n ℂ} (hH : H.IsHermitian) :
    NormedSpace.exp (((s : ℝ) : ℂ) • ((-Complex.I) • H)) ∈ Matrix.unitaryGroup n ℂ := by
  refine exp_skew_unitary ?_
  rw [Matrix.conjTranspose_smul, skew_of_hermitian hH]
  simp

theorem evolve_unitary (l : List (ℝ × Matrix n n ℂ)) (h : ∀ x ∈ l, x.2.IsHermitian) : evolve l ∈ Matrix.unitaryGroup n ℂ := by
  induction l using List.reverseRecOn with
  | nil => exact one_mem _
  | append_singleton l x ih =>
    rw [evolve_append]
    exact mul_mem (step_unitary (h x (by simp))) (ih fun y hy => h y (by simp [hy]))

/-! ## Speed -/

/-- How far an evolution gets from the identity. -/
theorem evolve_near_one (l : List (ℝ × Matrix n n ℂ)) (h : ∀ x ∈ l, x.2.IsHermitian) :
    ‖evolve l - 1‖ ≤ (l.map fun x => |x.1| * ‖x.2‖).sum := by
  induction l using List.reverseRecOn with
  | nil => simp [evolve]
  | append_singleton l x ih =>
    have hx := h x (by simp)
    have hl := ih fun y hy => h y (by simp [hy])
    rw [evolve_append, List.map_append, List.sum_append]
    set P := NormedSpace.exp (((x.1 : ℝ) : ℂ) • ((-Complex.I) • x.2)) with hP
    have hPu : P ∈ unitary (Matrix n n ℂ) := step_unitary hx
    have h1 : ‖P - 1‖ ≤ |x.1| * ‖x.2‖ := by
      have := exp_lip (A := ((x.1 : ℝ) : ℂ) • ((-Complex.I) • x.2)) (B := 0)
        (by rw [Matrix.conjTranspose_smul, skew_of_hermitian hx]; simp) (by simp)
      rw [NormedSpace.exp_zero, sub_zero, norm_smul, norm_smul] at this
      simp only [Complex.norm_real, norm_neg, Complex.norm_I, one_mul, Real.norm_eq_abs] at this
      exact this
    have e : P * evolve l - 1 = P * (evolve l - 1) + (P - 1) := by noncomm_ring
    rw [e]
    refine (norm_add_le _ _).trans ?_
    rw [CStarRing.norm_mem_unitary_mul _ hPu]
    simp
    linarith

/-- A shift of the zero of energy is a global phase. -/
theorem evolve_shift (l : List (ℝ × Matrix n n ℂ)) (e : Matrix n n ℂ → ℝ) :
    ∃ z : ℂ, ‖z‖ = 1 ∧ evolve l = z • evolve (l.map fun x => (x.1, x.2 - ((e x.2 : ℝ) : ℂ) • 1)) := by
  induction l using List.reverseRecOn with
  | nil => exact ⟨1, by simp, by simp [evolve]⟩
  | append_singleton l x ih =>
    obtain ⟨z, hz, ez⟩ := ih
    refine ⟨Complex.exp (((-(x.1 * e x.2) : ℝ) : ℂ) * Complex.I) * z, ?_, ?_⟩
    · rw [norm_mul, hz, mul_one, Complex.norm_exp_ofReal_mul_I]
    · rw [List.map_append, List.map_singleton, evolve_append, evolve_append, ez]
      have hc : ((x.1 : ℝ) : ℂ) • ((-Complex.I) • x.2) = (((-(x.1 * e x.2) : ℝ) : ℂ) * Complex.I) • (1 : Matrix n n ℂ) +
          ((x.1 : ℝ) : ℂ) • ((-Complex.I) • (x.2 - ((e x.2 : ℝ) : ℂ) • 1)) := by
        rw [smul_sub, smul_sub, smul_smul, smul_smul]
        push_cast
        module
      rw [hc, Matrix.exp_add_of_commute _ _ ((Commute.one_left _).smul_left _)]
      have h1 : NormedSpace.exp ((((-(x.1 * e x.2) : ℝ) : ℂ) * Complex.I) • (1 : Matrix n n ℂ)) =
          Complex.exp (((-(x.1 * e x.2) : ℝ) : ℂ) * Complex.I) • 1 := by
        rw [← Matrix.diagonal_one, ← Matrix.diagonal_smul, Matrix.exp_diagonal, ← Matrix.diagonal_smul]
        congr 1
        ext i
        simp [Pi.coe_exp, ← Complex.exp_eq_exp_ℂ]
      rw [h1, Matrix.smul_mul, Matrix.one_mul, Matrix.mul_smul, Matrix.smul_mul, smul_smul, mul_comm z]

/-- The infidelity between the identity and an operator close to it. -/
theorem idle_infidelity (cl : Closest) {cs : Option (List n)} (hcs : ∀ l, cs = some l → l.Nodup) (hne : Nonempty (CompIdx cs)) {mcu : Bool}
    (hm : mcu = false ∨ cs = none) {U : Matrix n n ℂ} (hU : U ∈ Matrix.unitaryGroup n ℂ) :
    1 - entFid cl cs 1 U mcu ≤ ‖U - 1‖ ^ 2 := by
  set E := inclusion cs with hE
  have hEE : Eᴴ * E = 1 := inclusion_isometry hcs
  have hUU : Uᴴ * U = 1 := Matrix.mem_unitaryGroup_iff'.mp hU
  have hd : 0 < dim cs := by unfold dim; exact_mod_cast Fintype.card_pos_iff.mpr hne
  have hEn : ‖E‖ ≤ 1 := by
    have h1 := Matrix.l2_opNorm_conjTranspose_mul_self E
    rw [hEE] at h1
    nlinarith [norm_one_le (k := CompIdx cs), norm_nonneg E]
  set y := (Eᴴ * U * E).trace with hy
  have h1 : (((U - 1) * E)ᴴ * ((U - 1) * E)).trace.re = 2 * dim cs - 2 * y.re := by
    have e : ((U - 1) * E)ᴴ * ((U - 1) * E) = 1 + 1 - Eᴴ * U * E - (Eᴴ * U * E)ᴴ := by
      have : ((U - 1) * E)ᴴ * ((U - 1) * E) = Eᴴ * (Uᴴ * U) * E + Eᴴ * E - Eᴴ * U * E - Eᴴ * Uᴴ * E := by
        simp only [Matrix.conjTranspose_mul, Matrix.conjTranspose_sub, Matrix.mul_sub, Matrix.sub_mul,
          Matrix.mul_assoc, Matrix.one_mul]
        abel
      rw [this, hUU, Matrix.mul_one, hEE]
      simp only [Matrix.conjTranspose_mul, Matrix.conjTranspose_conjTranspose, Matrix.mul_assoc]
    rw [e, Matrix.trace_sub, Matrix.trace_sub, Matrix.trace_add, Matrix.trace_conjTranspose, Matrix.trace_one, ← hy]
    simp [dim]
    ring
  have h2 : (((U - 1) * E)ᴴ * ((U - 1) * E)).trace.re ≤ dim cs * ‖U - 1‖ ^ 2 := by
    refine (Complex.re_le_norm _).trans ((trace_norm_le _).trans ?_)
    rw [Matrix.l2_opNorm_conjTranspose_mul_self, ← sq]
    refine mul_le_mul_of_nonneg_left (pow_le_pow_left₀ (norm_nonneg _) ?_ 2) hd.le
    exact (Matrix.l2_opNorm_mul _ _).trans (by nlinarith [norm_nonneg (U - 1)])
  have h4 : y.re ^ 2 ≤ ‖y‖ ^ 2 := by
    rw [← sq_abs]
    exact pow_le_pow_left₀ (abs_nonneg _) (Complex.abs_re_le_norm y) 2
  rw [entFid_inclusion cl cs mcu hm, Matrix.conjTranspose_one, Matrix.one_mul, div_div]
  change 1 - ‖y‖ ^ 2 / _ ≤ _
  rcases le_total 1 (‖U - 1‖ ^ 2) with h | h
  · have : 0 ≤ ‖y‖ ^ 2 / (dim cs * dim cs) := by positivity
    linarith
  · have h5 : dim cs * (1 - ‖U - 1‖ ^ 2 / 2) ≤ y.re := by linarith
    have h6 : (dim cs * (1 - ‖U - 1‖ ^ 2 / 2)) ^ 2 ≤ ‖y‖ ^ 2 := (pow_le_pow_left₀ (by nlinarith) h5 2).trans h4
    have h7 : 1 - ‖U - 1‖ ^ 2 ≤ ‖y‖ ^ 2 / (dim cs * dim cs) := by
      rw [le_div_iff₀ (by positivity)]
      nlinarith [sq_nonneg (‖U - 1‖ ^ 2), mul_pos hd hd]
    linarith

theorem entFid_phase_unit (cl : Closest) (cs : Option (List n)) {mcu : Bool} (hm : mcu = false ∨ cs = none)
    (T : Matrix (CompIdx cs) (CompIdx cs) ℂ) (U : Matrix n n ℂ) {z : ℂ} (hz : ‖z‖ = 1) :
    entFid cl cs T (z • U) mcu = entFid cl cs T U mcu := by
  rw [entFid_inclusion cl cs mcu hm, entFid_inclusion cl cs mcu hm, Matrix.mul_smul, Matrix.smul_mul, Matrix.mul_smul,
    Matrix.trace_smul, norm_smul, hz, one_mul]

/-! ## Conserved quantities -/

theorem evolve_commute (l : List (ℝ × Matrix n n ℂ)) (Q : Matrix n n ℂ) (h : ∀ x ∈ l, Commute x.2 Q) : Commute (evolve l) Q := by
  induction l using List.reverseRecOn with
  | nil => exact Commute.one_left Q
  | append_singleton l x ih =>
    rw [evolve_append]
    refine Commute.mul_left ?_ (ih fun y hy => h y (by simp [hy]))
    exact (((h x (by simp)).smul_left _).smul_left _).exp_left

omit [DecidableEq n] in
theorem sqNorm_vec (X : Matrix n n ℂ) : ‖vec X‖ ^ 2 = sqNorm X := by
  rw [EuclideanSpace.norm_sq_eq, Fintype.sum_prod_type]
  rfl

theorem norm_vec_mul (A X : Matrix n n ℂ) : ‖vec (A * X)‖ ≤ ‖A‖ * ‖vec X‖ := by
  rw [← sq_le_sq₀ (norm_nonneg _) (by positivity), mul_pow, sqNorm_vec, sqNorm_vec]
  unfold sqNorm
  rw [Finset.sum_comm, Finset.sum_comm (f := fun i j => ‖X i j‖ ^ 2), Finset.mul_sum]
  refine Finset.sum_le_sum fun j _ => ?_
  have h := Matrix.l2_opNorm_mulVec A (WithLp.toLp 2 fun i => X i j)
  have h2 := pow_le_pow_left₀ (norm_nonneg _) h 2
  rw [mul_pow, EuclideanSpace.norm_sq_eq, EuclideanSpace.norm_sq_eq] at h2
  exact h2

omit [DecidableEq n] in
theorem norm_vec_conjTranspose (X : Matrix n n ℂ) : ‖vec Xᴴ‖ = ‖vec X‖ := by
  rw [← sq_eq_sq₀ (norm_nonneg _) (norm_nonneg _), sqNorm_vec, sqNorm_vec]
  unfold sqNorm
  rw [Finset.sum_comm]
  simp

theorem norm_vec_mul' (X A : Matrix n n ℂ) : ‖vec (X * A)‖ ≤ ‖A‖ * ‖vec X‖ := by
  rw [← norm_vec_conjTranspose, Matrix.conjTranspose_mul, ← norm_vec_conjTranspose X, ← Matrix.l2_opNorm_conjTranspose A]
  exact norm_vec_mul _ _

/-- An operator which conserves `Q` is far from one that does not. -/
theorem conserved_bound (cl : Closest) (mcu : Bool) [Nonempty n] {T U : Matrix n n ℂ} (hT : T ∈ Matrix.unitaryGroup n ℂ)
    (hU : U ∈ Matrix.unitaryGroup n ℂ) (Q : Matrix n n ℂ) (hQ : Commute U Q) :
    sqNorm (T * Q - Q * T) ≤ 4 * Fintype.card n * ‖Q‖ ^ 2 * (1 - entFid cl none T U mcu) := by
  have hd : (0 : ℝ) < Fintype.card n := by exact_mod_cast Fintype.card_pos
  have hn : ∀ {V : Matrix n n ℂ}, V ∈ Matrix.unitaryGroup n ℂ → ‖vec V‖ ^ 2 = Fintype.card n := by
    intro V hV
    have h := @inner_self_eq_norm_sq_to_K ℂ _ _ _ _ (vec V)
    rw [vec_inner, show Vᴴ * V = 1 from Matrix.mem_unitaryGroup_iff'.mp hV, Matrix.trace_one] at h
    have : ((‖vec V‖ ^ 2 : ℝ) : ℂ) = ((Fintype.card n : ℝ) : ℂ) := by
      rw [Complex.ofReal_pow]
      refine h.symm.trans ?_
      simp
    exact_mod_cast this
  have h1 := (dist_projection hd (hn hT) (hn hU) _).2 rfl
  set z := inner ℂ (vec U) (vec T) / ((Fintype.card n : ℝ) : ℂ) with hz
  set R := T - z • U with hR
  have hv : vec T - z • vec U = vec R := by
    ext i
    simp [vec, hR]
  have hF : entFid cl none T U mcu = ‖inner ℂ (vec U) (vec T)‖ ^ 2 / Fintype.card n / Fintype.card n := by
    rw [norm_inner_symm, vec_inner]
    rfl
  rw [hv, ← hF] at h1
  have h2 : T * Q - Q * T = R * Q - Q * R := by
    rw [hR, Matrix.sub_mul, Matrix.mul_sub, Matrix.smul_mul, Matrix.mul_smul, hQ.eq]
    abel
  have h3 : ‖vec (T * Q - Q * T)‖ ≤ 2 * ‖Q‖ * ‖vec R‖ := by
    rw [h2, show vec (R * Q - Q * R) = vec (R * Q) - vec (Q * R) by ext i; simp [vec]]
    refine (norm_sub_le _ _).trans ?_
    have := norm_vec_mul' R Q
    have := norm_vec_mul Q R
    linarith
  have h4 := pow_le_pow_left₀ (norm_nonneg _) h3 2
  rw [sqNorm_vec, mul_pow, mul_pow, h1] at h4
  linarith

/-! ## The property -/

/-- **C125** Speed limit: the square root of the infidelity is at least that of doing nothing, less the accumulated strength of the
Hamiltonian.  The zero of energy may be chosen freely in each step. -/
theorem c125_speed_limit (p : SPar n n) (hi : p.init = 1) (hc : ∀ H ∈ p.ctrl, H.IsHermitian) (cl : Closest) (cs : Option (List n))
    (hcs : ∀ l, cs = some l → l.Nodup) (hne : Nonempty (CompIdx cs)) (mcu : Bool) (hm : mcu = false ∨ cs = none)
    (g : Gate n cs) (h : g.Ok p) (e : Matrix n n ℂ → ℝ) :
    ∃ c : ℝ, g.infidelity cl mcu p = .ok c ∧
      √(1 - entFid cl cs g.target 1 mcu) ≤
        √c + ((g.hamiltonians p.ctrl).map fun x => |x.1| * ‖x.2 - ((e x.2 : ℝ) : ℂ) • 1‖).sum := by
  obtain ⟨hU, hv⟩ := h.evolve hi hc cl mcu
  refine ⟨_, hv, ?_⟩
  obtain ⟨z, hz, ez⟩ := evolve_shift (g.hamiltonians p.ctrl) e
  have hh : ∀ x ∈ (g.hamiltonians p.ctrl).map fun x => (x.1, x.2 - ((e x.2 : ℝ) : ℂ) • (1 : Matrix n n ℂ)), x.2.IsHermitian := by
    intro x hx
    obtain ⟨y, hy, rfl⟩ := List.mem_map.mp hx
    have := h.hamiltonians hc y hy
    show (y.2 - _)ᴴ = _
    rw [Matrix.conjTranspose_sub, this.eq, Matrix.conjTranspose_smul]
    simp
  set V := Sim.evolve ((g.hamiltonians p.ctrl).map fun x => (x.1, x.2 - ((e x.2 : ℝ) : ℂ) • (1 : Matrix n n ℂ))) with hV
  have hVu : V ∈ Matrix.unitaryGroup n ℂ := evolve_unitary _ hh
  rw [ez, entFid_phase_unit cl cs hm _ _ hz]
  obtain ⟨-, -, h3, -⟩ := infidelity_mul cl hcs hne hm (one_mem _) h.unitary hVu (one_mem _)
  rw [Matrix.mul_one, Matrix.one_mul] at h3
  refine h3.trans (add_le_add le_rfl ?_)
  have h4 := idle_infidelity cl hcs hne hm hVu
  refine (Real.sqrt_le_sqrt h4).trans ?_
  rw [Real.sqrt_sq (norm_nonneg _)]
  refine (evolve_near_one _ hh).trans (le_of_eq ?_)
  rw [List.map_map]
  rfl

/-- **C125** A conserved quantity which the target does not conserve limits the infidelity of every pulse. -/
theorem c125_conserved (p : SPar n n) (hi : p.init = 1) (hc : ∀ H ∈ p.ctrl, H.IsHermitian) (cl : Closest) (mcu : Bool) [Nonempty n]
    (drift : List (Matrix n n ℂ)) (times : List ℝ) (u : Solver.Pulse) (T : Matrix n n ℂ)
    (h : Gate.Ok p (⟨drift, times, u, T⟩ : Gate n none)) (Q : Matrix n n ℂ) (hQd : ∀ H ∈ drift, H * Q = Q * H) (hQc : ∀ H ∈ p.ctrl, H * Q = Q * H) :
    ∃ c : ℝ, (⟨drift, times, u, T⟩ : Gate n none).infidelity cl mcu p = .ok c ∧
      sqNorm (T * Q - Q * T) ≤ 4 * Fintype.card n * ‖Q‖ ^ 2 * c := by
  obtain ⟨hU, hv⟩ := h.evolve hi hc cl mcu
  refine ⟨_, hv, conserved_bound (n := n) cl mcu h.unitary hU Q (evolve_commute _ Q fun x hx => ?_)⟩
  unfold Gate.hamiltonians at hx
  rw [← List.map_uncurry_zip_eq_zipWith] at hx
  obtain ⟨⟨s, d, a⟩, ha, rfl⟩ := List.mem_map.mp hx
  show Commute (hamiltonian d p.ctrl a) Q
  unfold hamiltonian
  refine Commute.add_left (hQd _ (List.of_mem_zip (List.of_mem_zip ha).2).1) ?_
  refine Commute.symm (Commute.list_sum_right _ _ fun X hX => ?_)
  rw [← List.map_uncurry_zip_eq_zipWith] at hX
  obtain ⟨⟨w, H⟩, hH, rfl⟩ := List.mem_map.mp hX
  exact (Commute.smul_left (show Commute H Q from hQc _ (List.of_mem_zip hH).2) _).symm

/-- **C125** In particular no pulse reaches a target which violates a conservation law. -/
theorem c125_unreachable (p : SPar n n) (hi : p.init = 1) (hc : ∀ H ∈ p.ctrl, H.IsHermitian) (cl : Closest) (mcu : Bool) [Nonempty n]
    (drift : List (Matrix n n ℂ)) (times : List ℝ) (T Q : Matrix n n ℂ) (hQd : ∀ H ∈ drift, H * Q = Q * H)
    (hQc : ∀ H ∈ p.ctrl, H * Q = Q * H) (hT : T * Q ≠ Q * T) :
    ∃ ε : ℝ, 0 < ε ∧ ∀ u : Solver.Pulse, Gate.Ok p (⟨drift, times, u, T⟩ : Gate n none) →
      ∃ c, (⟨drift, times, u, T⟩ : Gate n none).infidelity cl mcu p = .ok c ∧ ε ≤ c := by
  have hd : (0 : ℝ) < Fintype.card n := by exact_mod_cast Fintype.card_pos
  have hs : 0 < sqNorm (T * Q - Q * T) := by
    rw [← sqNorm_vec]
    have : vec (T * Q - Q * T) ≠ 0 := by
      intro h0
      refine hT (sub_eq_zero.mp ?_)
      ext i j
      exact congrArg (fun v : EuclideanSpace ℂ (n × n) => v (i, j)) h0
    positivity
  have hQ : 0 < ‖Q‖ := by
    rw [norm_pos_iff]
    rintro rfl
    exact hT (by simp)
  refine ⟨sqNorm (T * Q - Q * T) / (4 * Fintype.card n * ‖Q‖ ^ 2), by positivity, fun u hu => ?_⟩
  obtain ⟨c, h1, h2⟩ := c125_conserved p hi hc cl mcu drift times u T hu Q hQd hQc
  refine ⟨c, h1, ?_⟩
  rw [div_le_iff₀ (by positivity), mul_comm c]
  exact h2

namespace Ex125
open Ex115 Ex123

/-- A qubit whose only control shifts the energy of its levels. -/
noncomputable def par (L : Lapack (Fin 2)) : SPar (Fin 2) (Fin 2) :=
  ⟨L, .spectral, true, true, .none, 1, [], [Z], idTf, id, idAmp⟩

def X : Matrix (Fin 2) (Fin 2) ℂ := !![0, 1; 1, 0]

theorem X_unitary : X ∈ Matrix.unitaryGroup (Fin 2) ℂ := by
  rw [Matrix.mem_unitaryGroup_iff]
  ext i j
  fin_cases i <;> fin_cases j <;> simp [X, Matrix.mul_apply]

theorem norm_unitary_le {U : Matrix (Fin 2) (Fin 2) ℂ} (h : U ∈ Matrix.unitaryGroup (Fin 2) ℂ) : ‖U‖ ≤ 1 := by
  have h1 := Matrix.l2_opNorm_conjTranspose_mul_self U
  rw [show Uᴴ * U = 1 from Matrix.mem_unitaryGroup_iff'.mp h] at h1
  nlinarith [norm_one_le (k := Fin 2), norm_nonneg U]

theorem ok {L : Lapack (Fin 2)} (h : L.EighOk) (s t a b : ℝ) :
    Gate.Ok (par L) (⟨[0, Z], [s, t], [[a], [b]], X⟩ : Gate (Fin 2) none) :=
  ⟨⟨by simp [par], rfl, by simp, Or.inl ⟨rfl, rfl⟩, Or.inr ⟨rfl, rfl, h, by simpa using Z_hermitian,
      by simpa [par] using Z_hermitian⟩⟩, rfl, by simp [par], by simpa using Z_hermitian, X_unitary⟩

/-- No pulse on the energies of the levels flips the qubit: the infidelity is one for all pulses. -/
example (cl : Closest) : ∃ L : Lapack (Fin 2), ∀ s t a b : ℝ, ∃ c : ℝ,
    (⟨[0, Z], [s, t], [[a], [b]], X⟩ : Gate (Fin 2) none).infidelity cl false (par L) = .ok c ∧ 1 ≤ c := by
  obtain ⟨L, hE, -, -, -⟩ := lapack_exists (Fin 2)
  refine ⟨L, fun s t a b => ?_⟩
  obtain ⟨c, h1, h2⟩ := c125_conserved (par L) rfl (by simpa [par] using Z_hermitian) cl false [0, Z] [s, t] [[a], [b]] X
    (ok hE s t a b) Z (by simp) (by simp [par])
  refine ⟨c, h1, ?_⟩
  have h3 : sqNorm (X * Z - Z * X) = 8 := by
    simp [sqNorm, X, Z, Fin.sum_univ_two]
    norm_num
  rw [h3, Fintype.card_fin] at h2
  have h4 : ‖Z‖ ^ 2 ≤ 1 := pow_le_one₀ (norm_nonneg _) (norm_unitary_le Z_unitary)
  by_contra h5
  push Not at h5
  push_cast at h2
  rcases (sq_nonneg ‖Z‖).eq_or_lt with h6 | h6
  · rw [← h6] at h2
    norm_num at h2
  · nlinarith [mul_lt_mul_of_pos_left h5 h6]

/-- The lower limit exists before a pulse is chosen. -/
example (cl : Closest) : ∃ (L : Lapack (Fin 2)) (ε : ℝ), 0 < ε ∧ ∀ a b : ℝ, ∃ c : ℝ,
    (⟨[0, Z], [3, 4], [[a], [b]], X⟩ : Gate (Fin 2) none).infidelity cl false (par L) = .ok c ∧ ε ≤ c := by
  obtain ⟨L, hE, -, -, -⟩ := lapack_exists (Fin 2)
  have hXZ : X * Z ≠ Z * X := by
    intro h
    have := congrFun (congrFun h 0) 1
    simp [X, Z] at this
    norm_num [Complex.ext_iff] at this
  obtain ⟨ε, h1, h2⟩ := c125_unreachable (par L) rfl (by simpa [par] using Z_hermitian) cl false [0, Z] [3, 4] X Z (by simp)
    (by simp [par]) hXZ
  exact ⟨L, ε, h1, fun a b => h2 [[a], [b]] (ok hE 3 4 a b)⟩

/-- The qubit of C115 in a quarter of a unit of time with amplitude one is far from the flipped qubit. -/
example (cl : Closest) : ∃ (L : Lapack (Fin 2)) (c : ℝ),
    (⟨[0], [1 / 4], [[1, 0]], X⟩ : Gate (Fin 2) none).infidelity cl false (Ex115.par L []) = .ok c ∧ 9 / 16 ≤ c := by
  obtain ⟨L, hE, -, -, -⟩ := lapack_exists (Fin 2)
  have hc : ∀ H ∈ (Ex115.par L []).ctrl, H.IsHermitian := Ex93.ctrl_hermitian L
  obtain ⟨c, h1, h2⟩ := c125_speed_limit (Ex115.par L []) rfl hc cl none (by simp) ⟨(0 : Fin 2)⟩ false (Or.inl rfl)
    (⟨[0], [1 / 4], [[1, 0]], X⟩ : Gate (Fin 2) none)
    ⟨computes hE _ (by simp) _ (by simp) rfl, rfl, by simp [Ex115.par], by simp, X_unitary⟩ 0
  refine ⟨L, c, h1, ?_⟩
  have h3 : entFid cl none (X : Matrix (Fin 2) (Fin 2) ℂ) 1 false = 0 := by
    have : (Xᴴ * 1).trace = 0 := by simp [X, Matrix.trace, Fin.sum_univ_two]
    show ‖(Xᴴ * 1).trace‖ ^ 2 / _ / _ = 0
    rw [this]
    simp
  rw [h3] at h2
  have h4 := norm_unitary_le X_unitary
  simp [Gate.hamiltonians, hamiltonian, Ex115.par] at h2
  change 1 ≤ √c + 4⁻¹ * ‖X‖ at h2
  have h5 : 3 / 4 ≤ √c := by linarith
  have := Real.le_sqrt' (x := 3 / 4) (y := c) (by norm_num) |>.mp h5
  linarith

end Ex125

end
end Verif.Sim
