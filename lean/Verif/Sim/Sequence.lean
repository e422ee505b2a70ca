import Verif.Sim.Composition
import Verif.Cost.Worst

/-!
# C123: infidelities of sequences of gates

`OperationInfidelity` (cost_functions.py:1171-1275) of pulses played one after the other, compared with the infidelities of the
single pulses.
-/

namespace Verif.Sim
open Verif Verif.Transfer Verif.Operator Verif.Solver Verif.Cost Matrix

variable {n : Type} [Fintype n] [DecidableEq n]

/-! ## Specification -/

/-- One gate of a sequence: its drift Hamiltonians, time steps and amplitudes, and the operation it is meant to be. -/
structure Gate (n : Type) (cs : Option (List n)) where
  drift : List (Matrix n n ℂ)
  times : List ℝ
  amps : Solver.Pulse
  target : Matrix (CompIdx cs) (CompIdx cs) ℂ

namespace Gate
variable {cs : Option (List n)}

/-- The gate can be evaluated by a solver with the Hermitian controls of `p`, and is meant to be a unitary. -/
structure Ok (p : SPar n n) (g : Gate n cs) : Prop where
  computes : Computes { p with drift := g.drift } g.times
  rows : g.amps.length = g.times.length
  cols : ∀ r ∈ g.amps, r.length = p.ctrl.length
  hermitian : ∀ H ∈ g.drift, H.IsHermitian
  unitary : g.target ∈ Matrix.unitaryGroup (CompIdx cs) ℂ

/-- The gates played one after the other, the first one first. -/
def sequence (gs : List (Gate n cs)) : Gate n cs :=
  ⟨gs.flatMap (·.drift), gs.flatMap (·.times), gs.flatMap (·.amps), gs.foldl (fun T g => g.target * T) 1⟩

/-- What `OperationInfidelity.costs()` returns for the gate. -/
noncomputable def infidelity (cl : Closest) (mcu : Bool) (p : SPar n n) (g : Gate n cs) : Except PyErr ℝ :=
  (costOn (opCosts cl cs g.target mcu) { p with drift := g.drift }.bare.cfg
    (fresh { p with drift := g.drift }.bare.cfg g.times g.amps)).1

end Gate

/-! ## Lemmas -/

section Angle
variable {E : Type} [NormedAddCommGroup E] [InnerProductSpace ℂ E]
local notation "⟪" x ", " y "⟫" => inner ℂ x y

/-- The distance of a vector to a multiple of another one is smallest for the projection. -/
theorem dist_projection {r : ℝ} (hr : 0 < r) {u w : E} (hu : ‖u‖ ^ 2 = r) (hw : ‖w‖ ^ 2 = r) (z : ℂ) :
    r * (1 - ‖⟪w, u⟫‖ ^ 2 / r / r) ≤ ‖u - z • w‖ ^ 2 ∧ (z = ⟪w, u⟫ / r → ‖u - z • w‖ ^ 2 = r * (1 - ‖⟪w, u⟫‖ ^ 2 / r / r)) := by
  have key : ‖u - z • w‖ ^ 2 = r * (1 - ‖⟪w, u⟫‖ ^ 2 / r / r) + r * ‖z - ⟪w, u⟫ / r‖ ^ 2 := by
    have h1 : ‖u - z • w‖ ^ 2 = ‖u‖ ^ 2 - 2 * (⟪u, z • w⟫).re + ‖z • w‖ ^ 2 := by
      have := @norm_sub_sq ℂ E _ _ _ u (z • w)
      simpa using this
    have h2 : ‖z - ⟪w, u⟫ / r‖ ^ 2 = ‖z‖ ^ 2 - 2 * (z * (starRingEnd ℂ) (⟪w, u⟫)).re / r + ‖⟪w, u⟫‖ ^ 2 / r / r := by
      rw [← Complex.normSq_eq_norm_sq, Complex.normSq_sub, Complex.normSq_eq_norm_sq, Complex.normSq_eq_norm_sq]
      rw [map_div₀, Complex.conj_ofReal, mul_div_assoc', Complex.div_ofReal_re, norm_div, Complex.norm_real, Real.norm_of_nonneg hr.le]
      field_simp
      ring
    rw [h1, h2, inner_smul_right, norm_smul, mul_pow, hu, hw, ← inner_conj_symm u w]
    field_simp
    ring
  refine ⟨by rw [key]; nlinarith [sq_nonneg ‖z - ⟪w, u⟫ / r‖], fun hz => ?_⟩
  rw [key, hz]
  simp

theorem overlap_range {r : ℝ} (hr : 0 < r) {u w : E} (hu : ‖u‖ ^ 2 = r) (hw : ‖w‖ ^ 2 = r) :
    0 ≤ 1 - ‖⟪w, u⟫‖ ^ 2 / r / r ∧ ‖⟪w, u⟫‖ / r ≤ 1 := by
  have h : ‖⟪w, u⟫‖ ≤ r := by
    refine (norm_inner_le_norm w u).trans ?_
    have h1 : ‖w‖ = ‖u‖ := by
      rw [← Real.sqrt_sq (norm_nonneg w), ← Real.sqrt_sq (norm_nonneg u), hu, hw]
    rw [h1, ← sq, hu]
  have h3 : ‖⟪w, u⟫‖ / r ≤ 1 := (div_le_one hr).mpr h
  refine ⟨?_, h3⟩
  have : ‖⟪w, u⟫‖ ^ 2 / r / r = (‖⟪w, u⟫‖ / r) ^ 2 := by field_simp
  rw [this]
  nlinarith [div_nonneg (norm_nonneg ⟪w, u⟫) hr.le]

/-- The sine of the angle between lines satisfies the triangle inequality. -/
theorem sin_triangle {r : ℝ} (hr : 0 < r) {u v w : E} (hu : ‖u‖ ^ 2 = r) (hv : ‖v‖ ^ 2 = r) (hw : ‖w‖ ^ 2 = r) :
    √(1 - ‖⟪w, u⟫‖ ^ 2 / r / r) ≤ √(1 - ‖⟪v, u⟫‖ ^ 2 / r / r) + √(1 - ‖⟪w, v⟫‖ ^ 2 / r / r) := by
  have hs : ∀ {a b : E} (ha : ‖a‖ ^ 2 = r) (hb : ‖b‖ ^ 2 = r), ‖a - (⟪b, a⟫ / r) • b‖ = √r * √(1 - ‖⟪b, a⟫‖ ^ 2 / r / r) := by
    intro a b ha hb
    rw [← Real.sqrt_mul hr.le, ← (dist_projection hr ha hb _).2 rfl, Real.sqrt_sq (norm_nonneg _)]
  have h1 := (dist_projection hr hu hw (⟪v, u⟫ / r * (⟪w, v⟫ / r))).1
  have h2 : ‖u - (⟪v, u⟫ / r * (⟪w, v⟫ / r)) • w‖ ≤ √r * √(1 - ‖⟪v, u⟫‖ ^ 2 / r / r) + √r * √(1 - ‖⟪w, v⟫‖ ^ 2 / r / r) := by
    have e : u - (⟪v, u⟫ / r * (⟪w, v⟫ / r)) • w = (u - (⟪v, u⟫ / r) • v) + (⟪v, u⟫ / (r : ℂ)) • (v - (⟪w, v⟫ / r) • w) := by
      rw [smul_sub, smul_smul]
      abel
    rw [e]
    refine (norm_add_le _ _).trans ?_
    rw [norm_smul, hs hu hv, hs hv hw, norm_div, Complex.norm_real, Real.norm_of_nonneg hr.le]
    have := (overlap_range hr hu hv).2
    nlinarith [mul_nonneg (Real.sqrt_nonneg r) (Real.sqrt_nonneg (1 - ‖⟪w, v⟫‖ ^ 2 / r / r))]
  have h3 : √r * √(1 - ‖⟪w, u⟫‖ ^ 2 / r / r) ≤ ‖u - (⟪v, u⟫ / r * (⟪w, v⟫ / r)) • w‖ := by
    rw [← Real.sqrt_mul hr.le, ← Real.sqrt_sq (norm_nonneg (u - _))]
    exact Real.sqrt_le_sqrt h1
  have h4 := h3.trans h2
  rw [← mul_add] at h4
  exact le_of_mul_le_mul_left h4 (Real.sqrt_pos.mpr hr)

end Angle

/-- The Hilbert-Schmidt product as an inner product. -/
noncomputable def vec {k : Type} [Fintype k] (X : Matrix n k ℂ) : EuclideanSpace ℂ (n × k) := WithLp.toLp 2 fun i => X i.1 i.2

omit [DecidableEq n] in
theorem vec_inner {k : Type} [Fintype k] (X Y : Matrix n k ℂ) : inner ℂ (vec X) (vec Y) = (Xᴴ * Y).trace := by
  rw [EuclideanSpace.inner_eq_star_dotProduct]
  simp only [vec, dotProduct, Matrix.trace, Matrix.diag, Matrix.mul_apply, Matrix.conjTranspose_apply, Fintype.sum_prod_type]
  rw [Finset.sum_comm]
  refine Finset.sum_congr rfl fun a _ => Finset.sum_congr rfl fun i _ => ?_
  simp [mul_comm]

/-- The embedding of the computational subspace. -/
noncomputable def inclusion (cs : Option (List n)) : Matrix n (CompIdx cs) ℂ := fun i a => if sel cs a = i then 1 else 0

theorem inclusion_isometry {cs : Option (List n)} (hcs : ∀ l, cs = some l → l.Nodup) : (inclusion cs)ᴴ * inclusion cs = 1 := by
  have hinj := sel_injective hcs
  ext a b
  rw [Matrix.mul_apply, Matrix.one_apply]
  simp only [Matrix.conjTranspose_apply, inclusion]
  rw [Finset.sum_eq_single (sel cs a)]
  · by_cases h : a = b
    · subst h; simp
    · rw [if_neg h, if_neg (show ¬ sel cs b = sel cs a from fun e => h (hinj e).symm)]
      simp
  · intro i _ hi
    rw [if_neg (Ne.symm hi)]
    simp
  · simp

theorem inclusion_submatrix (cs : Option (List n)) (U : Matrix n n ℂ) :
    (inclusion cs)ᴴ * U * inclusion cs = U.submatrix (sel cs) (sel cs) := by
  ext a b
  rw [Matrix.mul_apply]
  simp only [Matrix.mul_apply, Matrix.conjTranspose_apply, inclusion, Matrix.submatrix_apply]
  rw [Finset.sum_eq_single (sel cs b)]
  · rw [Finset.sum_eq_single (sel cs a)]
    · simp
    · intro i _ hi
      rw [if_neg (Ne.symm hi)]
      simp
    · simp
  · intro i _ hi
    rw [if_neg (Ne.symm hi)]
    simp
  · simp

theorem entFid_inclusion (cl : Closest) (cs : Option (List n)) (mcu : Bool) (hm : mcu = false ∨ cs = none)
    (T : Matrix (CompIdx cs) (CompIdx cs) ℂ) (U : Matrix n n ℂ) :
    entFid cl cs T U mcu = ‖(Tᴴ * ((inclusion cs)ᴴ * U * inclusion cs)).trace‖ ^ 2 / dim cs / dim cs := by
  rw [inclusion_submatrix]
  rcases hm with rfl | rfl
  · cases cs <;> rfl
  · cases mcu <;> rfl

/-- The infidelity of a product of two operations. -/
theorem infidelity_mul (cl : Closest) {cs : Option (List n)} (hcs : ∀ l, cs = some l → l.Nodup) (hne : Nonempty (CompIdx cs))
    {mcu : Bool} (hm : mcu = false ∨ cs = none) {T₁ T₂ : Matrix (CompIdx cs) (CompIdx cs) ℂ}
    (h₁ : T₁ ∈ Matrix.unitaryGroup (CompIdx cs) ℂ) (h₂ : T₂ ∈ Matrix.unitaryGroup (CompIdx cs) ℂ) {U₁ U₂ : Matrix n n ℂ}
    (g₁ : U₁ ∈ Matrix.unitaryGroup n ℂ) (g₂ : U₂ ∈ Matrix.unitaryGroup n ℂ) :
    √(1 - entFid cl cs (T₂ * T₁) (U₂ * U₁) mcu) ≤ √(1 - entFid cl cs T₁ U₁ mcu) + √(1 - entFid cl cs T₂ U₂ mcu) ∧
    √(1 - entFid cl cs T₁ U₁ mcu) ≤ √(1 - entFid cl cs (T₂ * T₁) (U₂ * U₁) mcu) + √(1 - entFid cl cs T₂ U₂ mcu) ∧
    √(1 - entFid cl cs T₂ U₂ mcu) ≤ √(1 - entFid cl cs (T₂ * T₁) (U₂ * U₁) mcu) + √(1 - entFid cl cs T₁ U₁ mcu) ∧
    0 ≤ 1 - entFid cl cs T₁ U₁ mcu := by
  set E := inclusion cs with hE
  have hEE : Eᴴ * E = 1 := inclusion_isometry hcs
  have hd : 0 < dim cs := by unfold dim; exact_mod_cast Fintype.card_pos_iff.mpr hne
  have e1 : T₁ᴴ * T₁ = 1 := Matrix.mem_unitaryGroup_iff'.mp h₁
  have e1' : T₁ * T₁ᴴ = 1 := Matrix.mem_unitaryGroup_iff.mp h₁
  have e2 : T₂ᴴ * T₂ = 1 := Matrix.mem_unitaryGroup_iff'.mp h₂
  have f1 : U₁ᴴ * U₁ = 1 := Matrix.mem_unitaryGroup_iff'.mp g₁
  have f2 : U₂ᴴ * U₂ = 1 := Matrix.mem_unitaryGroup_iff'.mp g₂
  have hnorm : ∀ X : Matrix n (CompIdx cs) ℂ, Xᴴ * X = 1 → ‖vec X‖ ^ 2 = dim cs := by
    intro X hX
    have : ((‖vec X‖ ^ 2 : ℝ) : ℂ) = ((dim cs : ℝ) : ℂ) := by
      have h := @inner_self_eq_norm_sq_to_K ℂ _ _ _ _ (vec X)
      rw [vec_inner, hX, Matrix.trace_one] at h
      rw [Complex.ofReal_pow]
      refine h.symm.trans ?_
      simp [dim]
    exact_mod_cast this
  have hA : (U₂ * U₁ * E)ᴴ * (U₂ * U₁ * E) = 1 := by
    calc (U₂ * U₁ * E)ᴴ * (U₂ * U₁ * E) = Eᴴ * (U₁ᴴ * (U₂ᴴ * U₂) * U₁) * E := by
          simp only [Matrix.conjTranspose_mul, Matrix.mul_assoc]
      _ = 1 := by rw [f2, Matrix.mul_one, f1, Matrix.mul_one, hEE]
  have hB : (U₂ * E * T₁)ᴴ * (U₂ * E * T₁) = 1 := by
    calc (U₂ * E * T₁)ᴴ * (U₂ * E * T₁) = T₁ᴴ * (Eᴴ * (U₂ᴴ * U₂) * E) * T₁ := by
          simp only [Matrix.conjTranspose_mul, Matrix.mul_assoc]
      _ = 1 := by rw [f2, Matrix.mul_one, hEE, Matrix.mul_one, e1]
  have hC : (E * (T₂ * T₁))ᴴ * (E * (T₂ * T₁)) = 1 := by
    calc (E * (T₂ * T₁))ᴴ * (E * (T₂ * T₁)) = T₁ᴴ * (T₂ᴴ * (Eᴴ * E) * T₂) * T₁ := by
          simp only [Matrix.conjTranspose_mul, Matrix.mul_assoc]
      _ = 1 := by rw [hEE, Matrix.mul_one, e2, Matrix.mul_one, e1]
  have key := sin_triangle hd (hnorm _ hA) (hnorm _ hB) (hnorm _ hC)
  have key₁ := sin_triangle hd (hnorm _ hA) (hnorm _ hC) (hnorm _ hB)
  have key₂ := sin_triangle hd (hnorm _ hB) (hnorm _ hA) (hnorm _ hC)
  have key₃ := (overlap_range hd (hnorm _ hA) (hnorm _ hB)).1
  rw [norm_inner_symm (vec (U₂ * E * T₁)) (vec (E * (T₂ * T₁)))] at key₁
  rw [norm_inner_symm (vec (U₂ * U₁ * E)) (vec (U₂ * E * T₁))] at key₂
  simp only [vec_inner] at key key₁ key₂ key₃
  have t1 : ((E * (T₂ * T₁))ᴴ * (U₂ * U₁ * E)).trace = ((T₂ * T₁)ᴴ * (Eᴴ * (U₂ * U₁) * E)).trace := by
    rw [Matrix.conjTranspose_mul]; simp only [Matrix.mul_assoc]
  have t2 : ((U₂ * E * T₁)ᴴ * (U₂ * U₁ * E)).trace = (T₁ᴴ * (Eᴴ * U₁ * E)).trace := by
    congr 1
    calc (U₂ * E * T₁)ᴴ * (U₂ * U₁ * E) = T₁ᴴ * (Eᴴ * (U₂ᴴ * U₂) * U₁ * E) := by
          simp only [Matrix.conjTranspose_mul, Matrix.mul_assoc]
      _ = _ := by rw [f2, Matrix.mul_one]
  have t3 : ((E * (T₂ * T₁))ᴴ * (U₂ * E * T₁)).trace = (T₂ᴴ * (Eᴴ * U₂ * E)).trace := by
    have : (E * (T₂ * T₁))ᴴ * (U₂ * E * T₁) = T₁ᴴ * (T₂ᴴ * (Eᴴ * U₂ * E)) * T₁ := by
      simp only [Matrix.conjTranspose_mul, Matrix.mul_assoc]
    rw [this, Matrix.trace_mul_cycle, e1', Matrix.one_mul]
  rw [t1, t2, t3] at key
  rw [t1, t2, t3] at key₁
  rw [t1, t2, t3] at key₂
  rw [t2] at key₃
  simp only [entFid_inclusion cl cs mcu hm]
  exact ⟨key, key₁, by linarith, key₃⟩

theorem Computes.append {p : SPar n n} {d₁ d₂ : List (Matrix n n ℂ)} {τ₁ τ₂ : List ℝ} (h₁ : Computes { p with drift := d₁ } τ₁)
    (h₂ : Computes { p with drift := d₂ } τ₂) : Computes { p with drift := d₁ ++ d₂ } (τ₁ ++ τ₂) := by
  have hd₁ : d₁.length = τ₁.length := h₁.drift
  have hd₂ : d₂.length = τ₂.length := h₂.drift
  refine ⟨h₁.ctrl, by simp [hd₁, hd₂], by simp [h₁.steps], h₁.stable, ?_⟩
  rcases h₁.method with g | g
  · exact Or.inl g
  · refine Or.inr ⟨g.1, g.2.1, g.2.2.1, fun H hH => ?_, g.2.2.2.2⟩
    rcases h₂.method with g' | g'
    · have a : p.method = .frechet := g'.1
      have b : p.method = .spectral := g.1
      rw [a] at b
      cases b
    · rcases List.mem_append.mp hH with hH | hH
      · exact g.2.2.2.1 H hH
      · exact g'.2.2.2.1 H hH

theorem costOn_last (cl : Closest) (cs : Option (List n)) (T : Matrix (CompIdx cs) (CompIdx cs) ℂ) (mcu : Bool) (cfg : Cfg n n)
    (s : St n n) {f : List (Matrix n n ℂ)} {U : Matrix n n ℂ} (h : (readFwd cfg s).1 = .ok f) (hU : f.getLast? = some U) :
    (costOn (opCosts cl cs T mcu) cfg s).1 = .ok (1 - entFid cl cs T U mcu) := by
  unfold costOn
  rcases hq : readFwd cfg s with ⟨r, s'⟩
  rw [hq] at h
  simp only at h
  subst h
  simp only [hq]
  unfold opCosts
  rw [last_ok hU]
  rfl

/-- The operator of a gate is unitary, and its infidelity is that of the operator. -/
theorem Gate.Ok.value {cs : Option (List n)} {p : SPar n n} (hi : p.init = 1) (hc : ∀ H ∈ p.ctrl, H.IsHermitian) {g : Gate n cs}
    (h : g.Ok p) (cl : Closest) (mcu : Bool) :
    ∃ f U, (readFwd { p with drift := g.drift }.bare.cfg (fresh { p with drift := g.drift }.bare.cfg g.times g.amps)).1 = .ok f ∧
      f.getLast? = some U ∧ U ∈ Matrix.unitaryGroup n ℂ ∧ g.infidelity cl mcu p = .ok (1 - entFid cl cs g.target U mcu) := by
  obtain ⟨f, e1, e2⟩ := h.computes.fwd g.amps h.rows h.cols
  have hi' : ({ p with drift := g.drift } : SPar n n).init ∈ Matrix.unitaryGroup n ℂ := by
    show p.init ∈ _
    rw [hi]; exact one_mem _
  have hstep : ∀ P ∈ { p with drift := g.drift }.bare.steps g.times g.amps, P ∈ Matrix.unitaryGroup n ℂ := by
    rw [h.computes.steps_eq _ h.rows]
    intro P hP
    obtain ⟨i, hi, rfl⟩ := List.mem_iff_getElem.mp hP
    rw [List.getElem_zipWith, List.getElem_zip]
    have hH : (hamiltonian (g.drift[i]'(by simp at hi; omega)) p.ctrl (g.amps[i]'(by simp at hi; omega))).IsHermitian :=
      hamiltonian_hermitian (h.hermitian _ (List.getElem_mem _)) hc _
    refine exp_skew_unitary ?_
    rw [Matrix.conjTranspose_smul, Matrix.conjTranspose_smul, hH]
    simp
  have hall : ∀ i (hi : i < f.length), f[i] ∈ Matrix.unitaryGroup n ℂ := by
    intro i
    induction i with
    | zero =>
      intro hi0
      have := e2.2.1
      rw [List.getElem?_eq_getElem hi0] at this
      rw [Option.some.inj this]
      exact hi'
    | succ i ih =>
      intro hi1
      have hl : i < ({ p with drift := g.drift }.bare.steps g.times g.amps).length := by
        have := e2.1
        omega
      obtain ⟨F, a1, a2⟩ := e2.2.2 i hl
      have hF := ih (by omega)
      rw [List.getElem?_eq_getElem (by omega)] at a1
      rw [List.getElem?_eq_getElem hi1] at a2
      rw [Option.some.inj a2, ← Option.some.inj a1]
      exact mul_mem (hstep _ (List.getElem_mem _)) hF
  obtain ⟨U, hU⟩ : ∃ U, f.getLast? = some U := by
    cases f with
    | nil => simp [IsForward] at e2
    | cons a l => exact ⟨_, List.getLast?_eq_some_getLast (by simp)⟩
  refine ⟨f, U, e1, hU, ?_, ?_⟩
  · obtain ⟨i, hi, rfl⟩ := List.mem_iff_getElem.mp (List.mem_of_getLast? hU)
    exact hall i hi
  · exact costOn_last cl cs g.target mcu _ _ e1 hU

theorem sequence_append {cs : Option (List n)} (gs : List (Gate n cs)) (g : Gate n cs) :
    Gate.sequence (gs ++ [g]) = ⟨(Gate.sequence gs).drift ++ g.drift, (Gate.sequence gs).times ++ g.times,
      (Gate.sequence gs).amps ++ g.amps, g.target * (Gate.sequence gs).target⟩ := by
  simp [Gate.sequence]

theorem sequence_ok {cs : Option (List n)} {p : SPar n n} (gs : List (Gate n cs)) (hne : gs ≠ []) (h : ∀ g ∈ gs, g.Ok p) :
    (Gate.sequence gs).Ok p := by
  induction gs using List.reverseRecOn with
  | nil => exact absurd rfl hne
  | append_singleton gs g ih =>
    have hg := h g (by simp)
    by_cases h0 : gs = []
    · subst h0
      have : Gate.sequence ([] ++ [g]) = g := by simp [Gate.sequence]
      rw [this]; exact hg
    · have hs := ih h0 fun k hk => h k (by simp [hk])
      rw [sequence_append]
      refine ⟨Computes.append hs.computes hg.computes, by simp [hs.rows, hg.rows], ?_, ?_, mul_mem hg.unitary hs.unitary⟩
      · intro r hr
        rcases List.mem_append.mp hr with hr | hr
        · exact hs.cols r hr
        · exact hg.cols r hr
      · intro H hH
        rcases List.mem_append.mp hH with hH | hH
        · exact hs.hermitian H hH
        · exact hg.hermitian H hH

/-- Two gates, one after the other. -/
theorem two_gates {cs : Option (List n)} {p : SPar n n} (hi : p.init = 1) (hc : ∀ H ∈ p.ctrl, H.IsHermitian) (cl : Closest)
    (hcs : ∀ l, cs = some l → l.Nodup) (hne : Nonempty (CompIdx cs)) {mcu : Bool} (hm : mcu = false ∨ cs = none) {g₁ g₂ : Gate n cs}
    (h₁ : g₁.Ok p) (h₂ : g₂.Ok p) :
    ∃ c₁ c₂ c : ℝ, g₁.infidelity cl mcu p = .ok c₁ ∧ g₂.infidelity cl mcu p = .ok c₂ ∧
      (Gate.infidelity cl mcu p ⟨g₁.drift ++ g₂.drift, g₁.times ++ g₂.times, g₁.amps ++ g₂.amps, g₂.target * g₁.target⟩) = .ok c ∧
      √c ≤ √c₁ + √c₂ ∧ √c₁ ≤ √c + √c₂ ∧ √c₂ ≤ √c + √c₁ := by
  obtain ⟨f₁, U₁, a1, a2, a3, a4⟩ := h₁.value hi hc cl mcu
  obtain ⟨f₂, U₂, b1, b2, b3, b4⟩ := h₂.value hi hc cl mcu
  obtain ⟨f₁', f₂', f, V₁, V₂, e1, e2, e3, e4, e5, e6⟩ := c115_product p hi g₁.drift g₂.drift g₁.times g₂.times h₁.computes h₂.computes
    g₁.amps g₂.amps h₁.rows h₂.rows h₁.cols h₂.cols
  rw [a1] at e1
  rw [b1] at e2
  rw [← Except.ok.inj e1, a2] at e4
  rw [← Except.ok.inj e2, b2] at e5
  rw [← Option.some.inj e4, ← Option.some.inj e5] at e6
  obtain ⟨k1, k2, k3, -⟩ := infidelity_mul cl hcs hne hm h₁.unitary h₂.unitary a3 b3
  refine ⟨_, _, 1 - entFid cl cs (g₂.target * g₁.target) (U₂ * U₁) mcu, a4, b4, ?_, k1, k2, k3⟩
  exact costOn_last cl cs (g₂.target * g₁.target) mcu _ _ e3 e6

theorem infidelity_nonneg {cs : Option (List n)} {p : SPar n n} (hi : p.init = 1) (hc : ∀ H ∈ p.ctrl, H.IsHermitian) (cl : Closest)
    (hcs : ∀ l, cs = some l → l.Nodup) (hne : Nonempty (CompIdx cs)) {mcu : Bool} (hm : mcu = false ∨ cs = none) {g : Gate n cs}
    (h : g.Ok p) : ∃ c, g.infidelity cl mcu p = .ok c ∧ 0 ≤ c := by
  obtain ⟨f, U, a1, a2, a3, a4⟩ := h.value hi hc cl mcu
  exact ⟨_, a4, (infidelity_mul cl hcs hne hm h.unitary h.unitary a3 a3).2.2.2⟩

/-! ## The property -/

/-- **C123** The square roots of the infidelities add up at most: a sequence of gates is at most as bad as the gates together. -/
theorem c123_sequence (p : SPar n n) (hi : p.init = 1) (hc : ∀ H ∈ p.ctrl, H.IsHermitian) (cl : Closest) (cs : Option (List n))
    (hcs : ∀ l, cs = some l → l.Nodup) (hne : Nonempty (CompIdx cs)) (mcu : Bool) (hm : mcu = false ∨ cs = none)
    (gs : List (Gate n cs)) (h0 : gs ≠ []) (h : ∀ g ∈ gs, g.Ok p) :
    ∃ (c : ℝ) (cg : List ℝ), (Gate.sequence gs).infidelity cl mcu p = .ok c ∧
      gs.map (Gate.infidelity cl mcu p) = cg.map .ok ∧ 0 ≤ c ∧ (∀ x ∈ cg, 0 ≤ x) ∧ √c ≤ (cg.map Real.sqrt).sum := by
  induction gs using List.reverseRecOn with
  | nil => exact absurd rfl h0
  | append_singleton gs g ih =>
    have hg := h g (by simp)
    obtain ⟨cg, hcg, hcg0⟩ := infidelity_nonneg hi hc cl hcs hne hm hg
    by_cases h0 : gs = []
    · subst h0
      have : Gate.sequence ([] ++ [g]) = g := by simp [Gate.sequence]
      rw [this]
      exact ⟨cg, [cg], hcg, by simp [hcg], hcg0, by simpa using hcg0, by simp⟩
    · have hall : ∀ k ∈ gs, k.Ok p := fun k hk => h k (by simp [hk])
      obtain ⟨c, cs', e1, e2, e3, e4, e5⟩ := ih h0 hall
      obtain ⟨c₁, c₂, c', f1, f2, f3, f4, -, -⟩ := two_gates hi hc cl hcs hne hm (sequence_ok gs h0 hall) hg
      rw [e1] at f1
      rw [hcg] at f2
      obtain rfl := Except.ok.inj f1
      obtain rfl := Except.ok.inj f2
      obtain ⟨c'', g1, g2⟩ := infidelity_nonneg hi hc cl hcs hne hm (sequence_ok (gs ++ [g]) (by simp) h)
      refine ⟨c'', cs' ++ [cg], g1, by simp [e2, hcg], g2, ?_, ?_⟩
      · intro x hx
        rcases List.mem_append.mp hx with hx | hx
        · exact e4 x hx
        · rw [List.mem_singleton.mp hx]; exact hcg0
      · rw [sequence_append, f3] at g1
        rw [← Except.ok.inj g1]
        simp only [List.map_append, List.sum_append, List.map_cons, List.map_nil, List.sum_cons, List.sum_nil, add_zero]
        linarith

/-- **C123** A gate played `k` times has at most `k²` times the infidelity for the `k`-th power of its target. -/
theorem c123_repeated (p : SPar n n) (hi : p.init = 1) (hc : ∀ H ∈ p.ctrl, H.IsHermitian) (cl : Closest) (cs : Option (List n))
    (hcs : ∀ l, cs = some l → l.Nodup) (hne : Nonempty (CompIdx cs)) (mcu : Bool) (hm : mcu = false ∨ cs = none)
    (g : Gate n cs) (h : g.Ok p) (k : Nat) (hk : 0 < k) :
    (Gate.sequence (List.replicate k g)).target = g.target ^ k ∧
    ∃ c c₁ : ℝ, (Gate.sequence (List.replicate k g)).infidelity cl mcu p = .ok c ∧ g.infidelity cl mcu p = .ok c₁ ∧
      0 ≤ c₁ ∧ c ≤ k ^ 2 * c₁ := by
  refine ⟨?_, ?_⟩
  · clear h hk
    induction k with
    | zero => simp [Gate.sequence]
    | succ k ih =>
      rw [List.replicate_succ', sequence_append]
      simp only
      rw [ih, pow_succ']
  · obtain ⟨c₁, e1, e2⟩ := infidelity_nonneg hi hc cl hcs hne hm h
    obtain ⟨c, cg, f1, f2, f3, f4, f5⟩ := c123_sequence p hi hc cl cs hcs hne mcu hm (List.replicate k g) (by simpa using hk.ne')
      (fun g' hg' => by rw [List.eq_of_mem_replicate hg']; exact h)
    have hcg : cg = List.replicate k c₁ := by
      rw [List.map_replicate, e1] at f2
      have : (List.replicate k c₁).map (Except.ok : ℝ → Except PyErr ℝ) = cg.map .ok := by rw [List.map_replicate]; exact f2
      exact (List.map_injective_iff.mpr (fun a b hab => Except.ok.inj hab) this).symm
    rw [hcg, List.map_replicate, List.sum_replicate, nsmul_eq_mul] at f5
    refine ⟨c, c₁, f1, e1, e2, ?_⟩
    have := pow_le_pow_left₀ (Real.sqrt_nonneg c) f5 2
    rw [Real.sq_sqrt f3, mul_pow, Real.sq_sqrt e2] at this
    exact this

/-- **C123** A bad gate is not hidden by the gate before or after it. -/
theorem c123_not_hidden (p : SPar n n) (hi : p.init = 1) (hc : ∀ H ∈ p.ctrl, H.IsHermitian) (cl : Closest) (cs : Option (List n))
    (hcs : ∀ l, cs = some l → l.Nodup) (hne : Nonempty (CompIdx cs)) (mcu : Bool) (hm : mcu = false ∨ cs = none)
    (g₁ g₂ : Gate n cs) (h₁ : g₁.Ok p) (h₂ : g₂.Ok p) :
    ∃ c₁ c₂ c : ℝ, g₁.infidelity cl mcu p = .ok c₁ ∧ g₂.infidelity cl mcu p = .ok c₂ ∧
      (Gate.sequence [g₁, g₂]).infidelity cl mcu p = .ok c ∧ |√c₁ - √c₂| ≤ √c := by
  obtain ⟨c₁, c₂, c, e1, e2, e3, -, e5, e6⟩ := two_gates hi hc cl hcs hne hm h₁ h₂
  refine ⟨c₁, c₂, c, e1, e2, ?_, by rw [abs_le]; constructor <;> linarith⟩
  have : Gate.sequence [g₁, g₂] = ⟨g₁.drift ++ g₂.drift, g₁.times ++ g₂.times, g₁.amps ++ g₂.amps, g₂.target * g₁.target⟩ := by
    simp [Gate.sequence]
  rw [this]
  exact e3

/-! ## Examples -/

namespace Ex123
open Ex115

/-- Two gates of a qubit which share their controls, on the whole space: the first is meant to be the identity, the second `Z`. -/
noncomputable def g₁ : Gate (Fin 2) none := ⟨[Z], [3], [[1, 2]], (1 : Matrix (Fin 2) (Fin 2) ℂ)⟩
noncomputable def g₂ : Gate (Fin 2) none := ⟨[0, Z], [1, 2], [[3, 4], [5, 6]], (Z : Matrix (Fin 2) (Fin 2) ℂ)⟩

theorem Z_unitary : Z ∈ Matrix.unitaryGroup (Fin 2) ℂ := by
  rw [Matrix.mem_unitaryGroup_iff]
  ext i j
  fin_cases i <;> fin_cases j <;> simp [Z, Matrix.mul_apply]

theorem g₁_ok {L : Lapack (Fin 2)} (h : L.EighOk) : g₁.Ok (par L []) :=
  ⟨computes h _ (by simpa [g₁] using Z_hermitian) _ (by simp [g₁]) rfl, rfl, by simp [g₁, par], by simpa [g₁] using Z_hermitian,
    one_mem _⟩

theorem g₂_ok {L : Lapack (Fin 2)} (h : L.EighOk) : g₂.Ok (par L []) :=
  ⟨computes h _ (by simpa [g₂] using Z_hermitian) _ (by simp [g₂]) rfl, rfl, by simp [g₂, par], by simpa [g₂] using Z_hermitian,
    Z_unitary⟩

example (cl : Closest) : ∃ (L : Lapack (Fin 2)) (c c₁ c₂ c₇ : ℝ), g₁.infidelity cl false (par L []) = .ok c₁ ∧
    g₂.infidelity cl false (par L []) = .ok c₂ ∧ (Gate.sequence [g₁, g₂, g₁]).infidelity cl false (par L []) = .ok c ∧
    √c ≤ √c₁ + √c₂ + √c₁ ∧ (Gate.sequence (List.replicate 7 g₂)).infidelity cl false (par L []) = .ok c₇ ∧ c₇ ≤ 49 * c₂ := by
  obtain ⟨L, hE, -, -, -⟩ := lapack_exists (Fin 2)
  have hc : ∀ H ∈ (par L []).ctrl, H.IsHermitian := Ex93.ctrl_hermitian L
  obtain ⟨c, cg, e1, e2, -, -, e5⟩ := c123_sequence (par L []) rfl hc cl none (by simp) ⟨(0 : Fin 2)⟩ false (Or.inl rfl) [g₁, g₂, g₁]
    (by simp) (by simp [g₁_ok hE, g₂_ok hE])
  obtain ⟨-, c₇, c₂', f1, f2, -, f4⟩ := c123_repeated (par L []) rfl hc cl none (by simp) ⟨(0 : Fin 2)⟩ false (Or.inl rfl) g₂
    (g₂_ok hE) 7 (by norm_num)
  match cg, e2, e5 with
  | [c₁, c₂, c₃], e2, e5 =>
    simp only [List.map_cons, List.map_nil, List.cons.injEq, and_true] at e2
    obtain ⟨h1, h2, h3⟩ := e2
    rw [h1] at h3
    rw [h2] at f2
    obtain rfl := Except.ok.inj h3
    obtain rfl := Except.ok.inj f2
    refine ⟨L, c, c₁, c₂, c₇, h1, h2, e1, by simpa [add_assoc] using e5, f1, by norm_num at f4; exact f4⟩
  | [], e2, _ => simp at e2
  | [_], e2, _ => simp at e2
  | [_, _], e2, _ => simp at e2
  | _ :: _ :: _ :: _ :: _, e2, _ => simp at e2

end Ex123

end Verif.Sim
