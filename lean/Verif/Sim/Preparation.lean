import Verif.Sim.LeakSequence
import Verif.Sim.Crosstalk

/-!
# C156: state preparation

`StateInfidelity` (cost_functions.py:989-1038) for pulses played one after the other, for a gate applied to a prepared state, and what
no pulse can prepare.
-/

namespace Verif.Sim
open Verif Verif.Transfer Verif.Operator Verif.Solver Verif.Cost Matrix

section
open scoped Matrix.Norms.L2Operator
variable {n : Type} [Fintype n] [DecidableEq n]

/-! ## Specification -/

/-- A pulse which is meant to lead to a state of the computational subspace. -/
structure Preparation (n : Type) (cs : Option (List n)) where
  drift : List (Matrix n n ℂ)
  times : List ℝ
  amps : Solver.Pulse
  goal : CompIdx cs → ℂ

namespace Preparation
variable {cs : Option (List n)}

/-- The pulse can be evaluated by a solver with the Hermitian controls of `p`, and its goal is normalised. -/
structure Ok (p : SPar n n) (g : Preparation n cs) : Prop where
  computes : Computes { p with drift := g.drift } g.times
  rows : g.amps.length = g.times.length
  cols : ∀ r ∈ g.amps, r.length = p.ctrl.length
  hermitian : ∀ H ∈ g.drift, H.IsHermitian
  goal : ∑ i, ‖g.goal i‖ ^ 2 = 1

/-- What `StateInfidelity.costs()` returns for the pulse, with the ket of the goal as target, on a solver with the initial state `ψ`. -/
noncomputable def infidelity (p : SPar n n) (rescale : Bool) (ψ : Matrix n (Fin 1) ℂ) (g : Preparation n cs) : Except PyErr ℝ :=
  (costOn (stateCosts cs (asBra (.ket fun i _ => g.goal i)) rescale) (startedWith { p with drift := g.drift } ψ).bare.cfg
    (fresh (startedWith { p with drift := g.drift } ψ).bare.cfg g.times g.amps)).1

/-- One pulse after the other; the goal is that of the second one. -/
def andThen (g h : Preparation n cs) : Preparation n cs := ⟨g.drift ++ h.drift, g.times ++ h.times, g.amps ++ h.amps, h.goal⟩

/-- Several pulses, one after the other. -/
def play (g : Preparation n cs) : List (Preparation n cs) → Preparation n cs
  | [] => g
  | h :: hs => g.andThen (play h hs)

/-- The infidelities of the single pulses, each one on a solver with the goal of the one before as initial state. -/
noncomputable def single (p : SPar n n) (rescale : Bool) : Matrix n (Fin 1) ℂ → List (Preparation n cs) → List (Except PyErr ℝ)
  | _, [] => []
  | ψ, g :: gs => g.infidelity p rescale ψ :: single p rescale (embed cs g.goal) gs

/-- The total Hamiltonians of the time steps, with their durations. -/
def hamiltonians (ctrl : List (Matrix n n ℂ)) (g : Preparation n cs) : List (ℝ × Matrix n n ℂ) :=
  List.zipWith (fun s a => (s, hamiltonian a.1 ctrl a.2)) g.times (g.drift.zip g.amps)

/-- The gate of a pulse. -/
def _root_.Verif.Sim.Gate.prepares (g : Gate n cs) (φ : CompIdx cs → ℂ) : Preparation n cs :=
  ⟨g.drift, g.times, g.amps, fun i => ∑ a, g.target i a * φ a⟩

end Preparation

/-- The mean of an observable in a state. -/
noncomputable def expectation (Q : Matrix n n ℂ) (ψ : Matrix n (Fin 1) ℂ) : ℂ := (ψᴴ * Q * ψ) 0 0

/-! ## Lemmas -/

variable {cs : Option (List n)}

theorem embed_inner (φ : CompIdx cs → ℂ) (ψ : Matrix n (Fin 1) ℂ) :
    ∑ i, star (φ i) * ψ (sel cs i) 0 = inner ℂ (vec (embed cs φ)) (vec ψ) := by
  rw [vec_inner, Matrix.trace_fin_one, Matrix.mul_apply]
  simp only [Matrix.conjTranspose_apply, embed, star_sum, Finset.sum_mul]
  rw [Finset.sum_comm]
  refine Finset.sum_congr rfl fun a _ => ?_
  rw [Finset.sum_eq_single (sel cs a)]
  · simp
  · intro i _ hi
    rw [if_neg (Ne.symm hi)]
    simp
  · simp

omit [DecidableEq n] in
theorem norm_vec_ket (ψ : Matrix n (Fin 1) ℂ) : ‖vec ψ‖ ^ 2 = ∑ i, ‖ψ i 0‖ ^ 2 := by
  rw [EuclideanSpace.norm_sq_eq, Fintype.sum_prod_type]
  simp [vec]

theorem inner_unitary {U : Matrix n n ℂ} (hU : U ∈ Matrix.unitaryGroup n ℂ) (φ ψ : Matrix n (Fin 1) ℂ) :
    inner ℂ (vec (U * φ)) (vec (U * ψ)) = inner ℂ (vec φ) (vec ψ) := by
  rw [vec_inner, vec_inner, Matrix.conjTranspose_mul, Matrix.mul_assoc, ← Matrix.mul_assoc Uᴴ,
    show Uᴴ * U = 1 from Matrix.mem_unitaryGroup_iff'.mp hU, Matrix.one_mul]

theorem evolve_append_list (l l' : List (ℝ × Matrix n n ℂ)) : evolve (l ++ l') = evolve l' * evolve l := by
  induction l' using List.reverseRecOn with
  | nil => simp [evolve]
  | append_singleton l' x ih => rw [← List.append_assoc, evolve_append, evolve_append, ih, Matrix.mul_assoc]

/-- How far a state is from a goal. -/
noncomputable def away (φ ψ : Matrix n (Fin 1) ℂ) : ℝ := 1 - ‖inner ℂ (vec φ) (vec ψ)‖ ^ 2

omit [DecidableEq n] in
theorem away_nonneg {φ ψ : Matrix n (Fin 1) ℂ} (hφ : ∑ i, ‖φ i 0‖ ^ 2 = 1) (hψ : ∑ i, ‖ψ i 0‖ ^ 2 = 1) : 0 ≤ away φ ψ := by
  have := (overlap_range one_pos ((norm_vec_ket ψ).trans hψ) ((norm_vec_ket φ).trans hφ)).1
  simpa [away] using this

omit [DecidableEq n] in
theorem away_triangle {φ χ ψ : Matrix n (Fin 1) ℂ} (hφ : ∑ i, ‖φ i 0‖ ^ 2 = 1) (hχ : ∑ i, ‖χ i 0‖ ^ 2 = 1) (hψ : ∑ i, ‖ψ i 0‖ ^ 2 = 1) :
    √(away φ ψ) ≤ √(away χ ψ) + √(away φ χ) := by
  have := sin_triangle one_pos ((norm_vec_ket ψ).trans hψ) ((norm_vec_ket χ).trans hχ) ((norm_vec_ket φ).trans hφ)
  simpa [away] using this

omit [DecidableEq n] in
theorem away_symm (φ ψ : Matrix n (Fin 1) ℂ) : away φ ψ = away ψ φ := by
  unfold away
  rw [norm_inner_symm]

theorem Preparation.Ok.hamiltonians {p : SPar n n} (hc : ∀ H ∈ p.ctrl, H.IsHermitian) {g : Preparation n cs} (h : g.Ok p) :
    ∀ x ∈ g.hamiltonians p.ctrl, x.2.IsHermitian := by
  intro x hx
  unfold Preparation.hamiltonians at hx
  rw [← List.map_uncurry_zip_eq_zipWith] at hx
  obtain ⟨⟨s, d, a⟩, ha, rfl⟩ := List.mem_map.mp hx
  exact hamiltonian_hermitian (h.hermitian _ (List.of_mem_zip (List.of_mem_zip ha).2).1) hc _

/-- The value of the cost function. -/
theorem Preparation.Ok.value {p : SPar n n} {g : Preparation n cs} (h : g.Ok p) (b : Bool) (ψ : Matrix n (Fin 1) ℂ) :
    g.infidelity p b ψ = .ok (away (embed cs g.goal) (evolve (g.hamiltonians p.ctrl) * ψ)) := by
  have hcomp : Computes (startedWith { p with drift := g.drift } ψ) g.times :=
    ⟨h.computes.ctrl, h.computes.drift, h.computes.steps, h.computes.stable, h.computes.method⟩
  obtain ⟨f, e1, e2, e3⟩ := hcomp.evolves g.amps h.rows h.cols
  have e4 := e3 _ le_rfl
  rw [List.take_of_length_le (by rw [totals_length hcomp.drift g.amps h.rows])] at e4
  have e5 : f.getLast? = some (evolve (g.hamiltonians p.ctrl) * ψ) := by
    rw [List.getLast?_eq_getElem?, e2, Nat.add_sub_cancel, e4]
    rfl
  unfold Preparation.infidelity
  rw [costOn_fwd e1]
  unfold stateCosts
  rw [last_ok e5]
  simp only [bind, Except.bind]
  rw [stateFid_eq]
  unfold away
  rw [← embed_inner]
  rfl

theorem Preparation.Ok.unitary {p : SPar n n} (hc : ∀ H ∈ p.ctrl, H.IsHermitian) {g : Preparation n cs} (h : g.Ok p) :
    evolve (g.hamiltonians p.ctrl) ∈ Matrix.unitaryGroup n ℂ := evolve_unitary _ (h.hamiltonians hc)

theorem Preparation.Ok.andThen {p : SPar n n} {g h : Preparation n cs} (hg : g.Ok p) (hh : h.Ok p) : (g.andThen h).Ok p ∧
    evolve ((g.andThen h).hamiltonians p.ctrl) = evolve (h.hamiltonians p.ctrl) * evolve (g.hamiltonians p.ctrl) := by
  have hd : g.drift.length = g.times.length := hg.computes.drift
  refine ⟨⟨Computes.append hg.computes hh.computes, by simp [Preparation.andThen, hg.rows, hh.rows], ?_, ?_, hh.goal⟩, ?_⟩
  · intro r hr
    rcases List.mem_append.mp hr with hr | hr
    · exact hg.cols r hr
    · exact hh.cols r hr
  · intro H hH
    rcases List.mem_append.mp hH with hH | hH
    · exact hg.hermitian H hH
    · exact hh.hermitian H hH
  · rw [← evolve_append_list]
    congr 1
    show List.zipWith _ (g.times ++ h.times) ((g.drift ++ h.drift).zip (g.amps ++ h.amps)) = _
    rw [List.zip_append (by rw [hd, hg.rows]), List.zipWith_append (by simp [hd, hg.rows])]
    rfl

theorem Preparation.play_ok {p : SPar n n} (g : Preparation n cs) (gs : List (Preparation n cs)) (h : ∀ k ∈ g :: gs, k.Ok p) :
    (g.play gs).Ok p := by
  induction gs generalizing g with
  | nil => exact h g (by simp)
  | cons k ks ih => exact ((h g (by simp)).andThen (ih k fun x hx => h x (by simp at hx ⊢; tauto))).1

theorem embed_normalised (hcs : ∀ l, cs = some l → l.Nodup) {p : SPar n n} {g : Preparation n cs} (h : g.Ok p) :
    ∑ i, ‖embed cs g.goal i 0‖ ^ 2 = 1 := by rw [embed_norm cs hcs, h.goal]

/-- Two pulses, one after the other. -/
theorem two_preparations (hcs : ∀ l, cs = some l → l.Nodup) {p : SPar n n} (hc : ∀ H ∈ p.ctrl, H.IsHermitian) {g h : Preparation n cs}
    (hg : g.Ok p) (hh : h.Ok p) (b : Bool) {ψ : Matrix n (Fin 1) ℂ} (hψ : ∑ i, ‖ψ i 0‖ ^ 2 = 1) :
    ∃ c₁ c₂ c : ℝ, g.infidelity p b ψ = .ok c₁ ∧ h.infidelity p b (embed cs g.goal) = .ok c₂ ∧ (g.andThen h).infidelity p b ψ = .ok c ∧
      0 ≤ c₁ ∧ 0 ≤ c₂ ∧ 0 ≤ c ∧ √c ≤ √c₁ + √c₂ ∧ √c₁ ≤ √c + √c₂ ∧ √c₂ ≤ √c + √c₁ := by
  obtain ⟨hgh, e⟩ := hg.andThen hh
  have v3 := hgh.value b ψ
  set U := evolve (g.hamiltonians p.ctrl) with hU
  set V := evolve (h.hamiltonians p.ctrl) with hV
  have hUu : U ∈ Matrix.unitaryGroup n ℂ := hg.unitary hc
  have hVu : V ∈ Matrix.unitaryGroup n ℂ := hh.unitary hc
  rw [e, Matrix.mul_assoc] at v3
  have n1 := embed_normalised hcs hg
  have n2 := embed_normalised hcs hh
  have n3 : ∑ i, ‖(U * ψ) i 0‖ ^ 2 = 1 := by rw [unitary_column hUu, hψ]
  have n4 : ∑ i, ‖(V * (U * ψ)) i 0‖ ^ 2 = 1 := by rw [unitary_column hVu, n3]
  have n5 : ∑ i, ‖(V * embed cs g.goal) i 0‖ ^ 2 = 1 := by rw [unitary_column hVu, n1]
  have k : away (V * embed cs g.goal) (V * (U * ψ)) = away (embed cs g.goal) (U * ψ) := by
    unfold away
    rw [inner_unitary hVu]
  have t1 := away_triangle n2 n5 n4
  have t2 := away_triangle n5 n2 n4
  have t3 := away_triangle n2 n4 n5
  rw [k] at t1 t2
  rw [away_symm _ (embed cs h.goal)] at t2
  rw [away_symm (V * (U * ψ)), k] at t3
  exact ⟨_, _, _, hg.value b ψ, hh.value b _, v3, away_nonneg n1 n3, away_nonneg n2 n5, away_nonneg n2 n4, t1, t2, t3.trans (add_comm _ _).le⟩

/-! ## C156 -/

/-- **C156** The square roots of the infidelities of pulses played one after the other add up at most. -/
theorem c156_sequence (p : SPar n n) (hc : ∀ H ∈ p.ctrl, H.IsHermitian) (cs : Option (List n)) (hcs : ∀ l, cs = some l → l.Nodup) (b : Bool)
    (ψ : Matrix n (Fin 1) ℂ) (hψ : ∑ i, ‖ψ i 0‖ ^ 2 = 1) (g : Preparation n cs) (gs : List (Preparation n cs)) (h : ∀ k ∈ g :: gs, k.Ok p) :
    ∃ (c : ℝ) (cg : List ℝ), (g.play gs).infidelity p b ψ = .ok c ∧ Preparation.single p b ψ (g :: gs) = cg.map .ok ∧ 0 ≤ c ∧
      (∀ x ∈ cg, 0 ≤ x) ∧ √c ≤ (cg.map Real.sqrt).sum := by
  induction gs generalizing g ψ with
  | nil =>
    have hg := h g (by simp)
    have v := hg.value b ψ
    have h0 : 0 ≤ away (embed cs g.goal) (evolve (g.hamiltonians p.ctrl) * ψ) :=
      away_nonneg (embed_normalised hcs hg) (by rw [unitary_column (hg.unitary hc), hψ])
    exact ⟨_, [_], v, by simp only [Preparation.single, v, List.map_singleton]; rfl, h0, by simpa using h0, by simp⟩
  | cons k ks ih =>
    have hg := h g (by simp)
    have hks : ∀ x ∈ k :: ks, x.Ok p := fun x hx => h x (by simp at hx ⊢; tauto)
    obtain ⟨c', cg, e1, e2, e3, e4, e5⟩ := ih (embed cs g.goal) (embed_normalised hcs hg) k hks
    obtain ⟨c₁, c₂, c, f1, f2, f3, f4, -, f6, f7, -, -⟩ := two_preparations hcs hc hg (Preparation.play_ok k ks hks) b hψ
    rw [e1] at f2
    obtain rfl := Except.ok.inj f2
    refine ⟨c, c₁ :: cg, f3, ?_, f6, ?_, ?_⟩
    · rw [List.map_cons, ← e2, ← f1]
      rfl
    · intro x hx
      rcases List.mem_cons.mp hx with rfl | hx
      · exact f4
      · exact e4 x hx
    · rw [List.map_cons, List.sum_cons]
      linarith

/-- **C156** An error of one of two pulses is not hidden by the other one. -/
theorem c156_not_hidden (p : SPar n n) (hc : ∀ H ∈ p.ctrl, H.IsHermitian) (cs : Option (List n)) (hcs : ∀ l, cs = some l → l.Nodup) (b : Bool)
    (ψ : Matrix n (Fin 1) ℂ) (hψ : ∑ i, ‖ψ i 0‖ ^ 2 = 1) (g h : Preparation n cs) (hg : g.Ok p) (hh : h.Ok p) :
    ∃ c₁ c₂ c : ℝ, g.infidelity p b ψ = .ok c₁ ∧ h.infidelity p b (embed cs g.goal) = .ok c₂ ∧ (g.andThen h).infidelity p b ψ = .ok c ∧
      |√c₁ - √c₂| ≤ √c := by
  obtain ⟨c₁, c₂, c, e1, e2, e3, -, -, -, -, e4, e5⟩ := two_preparations hcs hc hg hh b hψ
  exact ⟨c₁, c₂, c, e1, e2, e3, by rw [abs_le]; constructor <;> linarith⟩

/-- The infidelity of a state and of the operation. -/
theorem state_of_operation (cl : Closest) {mcu : Bool} (hm : mcu = false ∨ cs = none) (hcs : ∀ l, cs = some l → l.Nodup)
    {T : Matrix (CompIdx cs) (CompIdx cs) ℂ} (hT : T ∈ Matrix.unitaryGroup (CompIdx cs) ℂ) {U : Matrix n n ℂ} (hU : U ∈ Matrix.unitaryGroup n ℂ)
    {φ : CompIdx cs → ℂ} (hφ : ∑ i, ‖φ i‖ ^ 2 = 1) :
    away (embed cs fun i => ∑ a, T i a * φ a) (U * embed cs φ) ≤ dim cs * (1 - entFid cl cs T U mcu) := by
  have hne : Nonempty (CompIdx cs) := by
    by_contra hc
    rw [not_nonempty_iff] at hc
    simp at hφ
  obtain ⟨i₀⟩ := hne
  obtain ⟨B, hB, e⟩ := extend_unitary φ hφ i₀
  have hd : 0 < dim cs := by unfold dim; exact_mod_cast Fintype.card_pos_iff.mpr ⟨i₀⟩
  have hval : ∀ a, away (embed cs fun i => ∑ a', T i a' * B a' a) (U * embed cs fun i => B i a) =
      1 - ‖(Bᴴ * (Tᴴ * U.submatrix (sel cs) (sel cs)) * B) a a‖ ^ 2 := by
    intro a
    unfold away
    rw [← embed_inner, diag_basis, ← overlap_eq cs T U fun i => B i a]
    rfl
  have hnn : ∀ a, 0 ≤ away (embed cs fun i => ∑ a', T i a' * B a' a) (U * embed cs fun i => B i a) := by
    intro a
    have := overlap_le cs hcs hT hU (fun i => B i a) (norm_column hB a)
    rw [hval, diag_basis, ← overlap_eq cs T U fun i => B i a]
    linarith
  have h := trace_basis (Tᴴ * U.submatrix (sel cs) (sel cs)) B hB
  have h1 : away (embed cs fun i => ∑ a, T i a * φ a) (U * embed cs φ) ≤
      ∑ a, away (embed cs fun i => ∑ a', T i a' * B a' a) (U * embed cs fun i => B i a) := by
    have := Finset.single_le_sum (fun a _ => hnn a) (Finset.mem_univ i₀)
    have e' : (fun i => B i i₀) = φ := funext e
    simp only [e] at this
    exact this
  refine h1.trans ?_
  simp only [hval, Finset.sum_sub_distrib, Finset.sum_const, Finset.card_univ, nsmul_eq_mul, mul_one]
  rw [entFid_inclusion cl cs mcu hm, inclusion_submatrix]
  have ec : ((Fintype.card (CompIdx cs) : ℕ) : ℝ) = dim cs := rfl
  rw [ec] at h ⊢
  have h2 : dim cs * (1 - ‖(Tᴴ * U.submatrix (sel cs) (sel cs)).trace‖ ^ 2 / dim cs / dim cs) =
      dim cs - ‖(Tᴴ * U.submatrix (sel cs) (sel cs)).trace‖ ^ 2 / dim cs := by
    field_simp
  rw [h2]
  have h3 : ‖(Tᴴ * U.submatrix (sel cs) (sel cs)).trace‖ ^ 2 / dim cs ≤
      ∑ i, ‖(Bᴴ * (Tᴴ * U.submatrix (sel cs) (sel cs)) * B) i i‖ ^ 2 := by
    rw [div_le_iff₀ hd, mul_comm]
    exact h
  linarith

/-- **C156** A gate applied to a prepared state: the error of the preparation and at most `d` times the infidelity of the gate. -/
theorem c156_gate (p : SPar n n) (hi : p.init = 1) (hc : ∀ H ∈ p.ctrl, H.IsHermitian) (cl : Closest) (cs : Option (List n))
    (hcs : ∀ l, cs = some l → l.Nodup) (mcu b : Bool) (hm : mcu = false ∨ cs = none) (ψ : Matrix n (Fin 1) ℂ) (hψ : ∑ i, ‖ψ i 0‖ ^ 2 = 1)
    (g : Preparation n cs) (hg : g.Ok p) (t : Gate n cs) (ht : t.Ok p) :
    ∃ c₁ c₂ c : ℝ, g.infidelity p b ψ = .ok c₁ ∧ t.infidelity cl mcu p = .ok c₂ ∧
      (g.andThen (t.prepares g.goal)).infidelity p b ψ = .ok c ∧ 0 ≤ c₁ ∧ 0 ≤ c₂ ∧ √c ≤ √c₁ + √(dim cs * c₂) := by
  have hgoal : ∑ i, ‖∑ a, t.target i a * g.goal a‖ ^ 2 = 1 := (sum_sq_unitary ht.unitary g.goal).trans hg.goal
  have hk : (t.prepares g.goal).Ok p := ⟨ht.computes, ht.rows, ht.cols, ht.hermitian, hgoal⟩
  obtain ⟨hU, hv⟩ := ht.evolve hi hc cl mcu
  obtain ⟨c₁, c₂, c, e1, e2, e3, e4, e5, -, e7, -, -⟩ := two_preparations hcs hc hg hk b hψ
  have hb := state_of_operation cl hm hcs ht.unitary hU hg.goal
  rw [hk.value b _] at e2
  obtain rfl := Except.ok.inj e2
  have hne : Nonempty (CompIdx cs) := by
    by_contra hn
    rw [not_nonempty_iff] at hn
    have := hg.goal
    simp at this
  refine ⟨c₁, _, c, e1, hv, e3, e4, (infidelity_mul cl hcs hne hm ht.unitary ht.unitary hU hU).2.2.2, e7.trans ?_⟩
  exact add_le_add le_rfl (Real.sqrt_le_sqrt hb)

/-- **C156** Speed limit: a pulse which is too short or too weak cannot prepare a state which is far from the initial one. -/
theorem c156_speed_limit (p : SPar n n) (hc : ∀ H ∈ p.ctrl, H.IsHermitian) (cs : Option (List n)) (hcs : ∀ l, cs = some l → l.Nodup)
    (b : Bool) (ψ : Matrix n (Fin 1) ℂ) (hψ : ∑ i, ‖ψ i 0‖ ^ 2 = 1) (g : Preparation n cs) (h : g.Ok p) (e : Matrix n n ℂ → ℝ) :
    ∃ c : ℝ, g.infidelity p b ψ = .ok c ∧ √(1 - ‖∑ i, star (g.goal i) * ψ (sel cs i) 0‖ ^ 2) ≤
      √c + ((g.hamiltonians p.ctrl).map fun x => |x.1| * ‖x.2 - ((e x.2 : ℝ) : ℂ) • 1‖).sum := by
  refine ⟨_, h.value b ψ, ?_⟩
  obtain ⟨z, hz, ez⟩ := evolve_shift (g.hamiltonians p.ctrl) e
  have hh : ∀ x ∈ (g.hamiltonians p.ctrl).map fun x => (x.1, x.2 - ((e x.2 : ℝ) : ℂ) • (1 : Matrix n n ℂ)), x.2.IsHermitian := by
    intro x hx
    obtain ⟨y, hy, rfl⟩ := List.mem_map.mp hx
    have := h.hamiltonians hc y hy
    simp only [Matrix.IsHermitian, Matrix.conjTranspose_sub, Matrix.conjTranspose_smul, Matrix.conjTranspose_one, this.eq]
    simp
  have hnear := evolve_near_one _ hh
  rw [List.map_map] at hnear
  set W := evolve ((g.hamiltonians p.ctrl).map fun x => (x.1, x.2 - ((e x.2 : ℝ) : ℂ) • (1 : Matrix n n ℂ))) with hW
  have hWu : W ∈ Matrix.unitaryGroup n ℂ := evolve_unitary _ hh
  have n1 := embed_normalised hcs h
  have n2 : ∑ i, ‖(W * ψ) i 0‖ ^ 2 = 1 := by rw [unitary_column hWu, hψ]
  have e1 : away (embed cs g.goal) (evolve (g.hamiltonians p.ctrl) * ψ) = away (embed cs g.goal) (W * ψ) := by
    unfold away
    rw [ez, Matrix.smul_mul, show vec (z • (W * ψ)) = z • vec (W * ψ) from rfl, inner_smul_right, norm_mul, hz, one_mul]
  have e2 : 1 - ‖∑ i, star (g.goal i) * ψ (sel cs i) 0‖ ^ 2 = away (embed cs g.goal) ψ := by
    unfold away
    rw [embed_inner]
  have e3 : ∀ χ : Matrix n (Fin 1) ℂ, away (embed cs g.goal) χ = 1 - ‖∑ i, star (embed cs g.goal i 0) * χ i 0‖ ^ 2 := by
    intro χ
    unfold away
    rw [vec_inner, Matrix.trace_fin_one, Matrix.mul_apply]
    rfl
  have key := state_near (t := fun i => star (embed cs g.goal i 0)) (ψ := fun i => ψ i 0) (φ := fun i => (W * ψ) i 0) (by simpa using n1) hψ n2
  rw [← e3, ← e3] at key
  rw [e1, e2]
  refine key.trans (add_le_add le_rfl (le_trans ?_ hnear))
  have hcol := column_le (W - 1) ψ
  rw [hψ, Real.sqrt_one, mul_one, Matrix.sub_mul, Matrix.one_mul] at hcol
  refine le_trans (le_of_eq ?_) hcol
  congr 1
  exact Finset.sum_congr rfl fun i _ => by rw [Matrix.sub_apply, norm_sub_rev]

/-- The means of an observable in two states. -/
theorem expectation_near {φ ψ : Matrix n (Fin 1) ℂ} (hφ : ∑ i, ‖φ i 0‖ ^ 2 = 1) (hψ : ∑ i, ‖ψ i 0‖ ^ 2 = 1) (Q : Matrix n n ℂ) :
    ‖expectation Q φ - expectation Q ψ‖ ^ 2 ≤ 4 * ‖Q‖ ^ 2 * away φ ψ := by
  have hin : ∀ χ ξ : Matrix n (Fin 1) ℂ, (χᴴ * Q * ξ) 0 0 = inner ℂ (vec χ) (vec (Q * ξ)) := by
    intro χ ξ
    rw [vec_inner, Matrix.trace_fin_one, Matrix.mul_assoc]
  have hQ : ∀ ξ : Matrix n (Fin 1) ℂ, ‖vec (Q * ξ)‖ ≤ ‖Q‖ * ‖vec ξ‖ := by
    intro ξ
    have := column_le Q ξ
    rwa [← norm_vec_ket, ← norm_vec_ket, Real.sqrt_sq (norm_nonneg _), Real.sqrt_sq (norm_nonneg _)] at this
  -- a phase with which the overlap is not negative
  obtain ⟨z, hz, hzo⟩ : ∃ z : ℂ, ‖z‖ = 1 ∧ inner ℂ (vec φ) (vec (z • ψ)) = ((‖inner ℂ (vec φ) (vec ψ)‖ : ℝ) : ℂ) := by
    have hsm : ∀ z : ℂ, inner ℂ (vec φ) (vec (z • ψ)) = z * inner ℂ (vec φ) (vec ψ) := by
      intro z
      rw [show vec (z • ψ) = z • vec ψ from rfl, inner_smul_right]
    set w := inner ℂ (vec φ) (vec ψ) with hw
    by_cases h0 : w = 0
    · exact ⟨1, by simp, by rw [hsm, h0]; simp⟩
    · refine ⟨star w / ‖w‖, ?_, ?_⟩
      · rw [norm_div, norm_star, Complex.norm_real, norm_norm, div_self (by simpa using h0)]
      · rw [hsm, div_mul_eq_mul_div, show star w * w = ((‖w‖ ^ 2 : ℝ) : ℂ) by rw [Complex.ofReal_pow]; exact Complex.conj_mul' w]
        have : ((‖w‖ : ℝ) : ℂ) ≠ 0 := by simpa using h0
        field_simp
        push_cast
        ring
  have hez : expectation Q (z • ψ) = expectation Q ψ := by
    unfold expectation
    rw [Matrix.conjTranspose_smul, Matrix.smul_mul, Matrix.smul_mul, Matrix.mul_smul, smul_smul,
      show star z * z = 1 by rw [show star z * z = ((‖z‖ ^ 2 : ℝ) : ℂ) by rw [Complex.ofReal_pow]; exact Complex.conj_mul' z, hz]; simp, one_smul]
  set χ := z • ψ with hχ
  have hχn : ‖vec χ‖ ^ 2 = 1 := by
    rw [hχ, show vec (z • ψ) = z • vec ψ from rfl, norm_smul, hz, one_mul, norm_vec_ket, hψ]
  have hφn : ‖vec φ‖ ^ 2 = 1 := by rw [norm_vec_ket, hφ]
  have hdiff : expectation Q φ - expectation Q χ = (1 / 2 : ℂ) * (((φ - χ)ᴴ * Q * (φ + χ)) 0 0 + ((φ + χ)ᴴ * Q * (φ - χ)) 0 0) := by
    unfold expectation
    simp only [Matrix.conjTranspose_sub, Matrix.conjTranspose_add, Matrix.sub_mul, Matrix.add_mul, Matrix.mul_sub, Matrix.mul_add,
      Matrix.sub_apply, Matrix.add_apply]
    ring
  have hbound : ‖expectation Q φ - expectation Q χ‖ ≤ ‖Q‖ * (‖vec (φ - χ)‖ * ‖vec (φ + χ)‖) := by
    rw [hdiff, norm_mul]
    have a1 : ‖((φ - χ)ᴴ * Q * (φ + χ)) 0 0‖ ≤ ‖Q‖ * (‖vec (φ - χ)‖ * ‖vec (φ + χ)‖) := by
      rw [hin]
      refine (norm_inner_le_norm _ _).trans ?_
      nlinarith [mul_le_mul_of_nonneg_left (hQ (φ + χ)) (norm_nonneg (vec (φ - χ)))]
    have a2 : ‖((φ + χ)ᴴ * Q * (φ - χ)) 0 0‖ ≤ ‖Q‖ * (‖vec (φ - χ)‖ * ‖vec (φ + χ)‖) := by
      rw [hin]
      refine (norm_inner_le_norm _ _).trans ?_
      nlinarith [mul_le_mul_of_nonneg_left (hQ (φ - χ)) (norm_nonneg (vec (φ + χ)))]
    have a3 := norm_add_le (((φ - χ)ᴴ * Q * (φ + χ)) 0 0) (((φ + χ)ᴴ * Q * (φ - χ)) 0 0)
    have a4 : ‖(1 / 2 : ℂ)‖ = 1 / 2 := by norm_num
    rw [a4]
    linarith
  set x := ‖inner ℂ (vec φ) (vec ψ)‖ with hx
  have hm : ‖vec (φ - χ)‖ ^ 2 = 2 - 2 * x := by
    have := @norm_sub_sq ℂ _ _ _ _ (vec φ) (vec χ)
    rw [hzo, hφn, hχn] at this
    rw [show vec (φ - χ) = vec φ - vec χ from rfl, this]
    simp
    ring
  have hp : ‖vec (φ + χ)‖ ^ 2 = 2 + 2 * x := by
    have := @norm_add_sq ℂ _ _ _ _ (vec φ) (vec χ)
    rw [hzo, hφn, hχn] at this
    rw [show vec (φ + χ) = vec φ + vec χ from rfl, this]
    simp
    ring
  rw [← hez]
  refine (pow_le_pow_left₀ (norm_nonneg _) hbound 2).trans (le_of_eq ?_)
  rw [mul_pow, mul_pow, hm, hp]
  unfold away
  ring

/-- **C156** Conserved quantities: if an observable commutes with all Hamiltonians, every pulse leaves its mean unchanged, and cannot
prepare a state with another mean. -/
theorem c156_conserved (p : SPar n n) (hc : ∀ H ∈ p.ctrl, H.IsHermitian) (cs : Option (List n)) (hcs : ∀ l, cs = some l → l.Nodup)
    (b : Bool) (ψ : Matrix n (Fin 1) ℂ) (hψ : ∑ i, ‖ψ i 0‖ ^ 2 = 1) (g : Preparation n cs) (h : g.Ok p) (Q : Matrix n n ℂ)
    (hQd : ∀ H ∈ g.drift, H * Q = Q * H) (hQc : ∀ H ∈ p.ctrl, H * Q = Q * H) :
    ∃ c : ℝ, g.infidelity p b ψ = .ok c ∧ ‖expectation Q (embed cs g.goal) - expectation Q ψ‖ ^ 2 ≤ 4 * ‖Q‖ ^ 2 * c := by
  refine ⟨_, h.value b ψ, ?_⟩
  have hU := h.unitary hc
  have hcomm : Commute (evolve (g.hamiltonians p.ctrl)) Q := by
    refine evolve_commute _ Q fun x hx => ?_
    unfold Preparation.hamiltonians at hx
    rw [← List.map_uncurry_zip_eq_zipWith] at hx
    obtain ⟨⟨s, d, a⟩, ha, rfl⟩ := List.mem_map.mp hx
    show Commute (hamiltonian d p.ctrl a) Q
    unfold hamiltonian
    refine Commute.add_left (hQd _ (List.of_mem_zip (List.of_mem_zip ha).2).1) ?_
    refine Commute.symm (Commute.list_sum_right _ _ fun X hX => ?_)
    rw [← List.map_uncurry_zip_eq_zipWith] at hX
    obtain ⟨⟨w, H⟩, hH, rfl⟩ := List.mem_map.mp hX
    exact (Commute.smul_left (show Commute H Q from hQc _ (List.of_mem_zip hH).2) _).symm
  set U := evolve (g.hamiltonians p.ctrl) with hUdef
  have he : expectation Q (U * ψ) = expectation Q ψ := by
    unfold expectation
    refine congrArg (fun X : Matrix (Fin 1) (Fin 1) ℂ => X 0 0) ?_
    calc (U * ψ)ᴴ * Q * (U * ψ) = ψᴴ * (Uᴴ * (Q * U)) * ψ := by simp only [Matrix.conjTranspose_mul, Matrix.mul_assoc]
      _ = ψᴴ * Q * ψ := by
        rw [← hcomm.eq, ← Matrix.mul_assoc Uᴴ, show Uᴴ * U = 1 from Matrix.mem_unitaryGroup_iff'.mp hU, Matrix.one_mul]
  have := expectation_near (embed_normalised hcs h) (show ∑ i, ‖(U * ψ) i 0‖ ^ 2 = 1 by rw [unitary_column hU, hψ]) Q
  rwa [he] at this

/-! ## The bounds are attained -/

namespace Ex156
open Ex115 Ex155

/-- A rotation which should do nothing. -/
noncomputable def turn (θ : ℝ) : Preparation (Fin 2) none := ⟨[0], [1], [[θ, 0]], (Pi.single 0 1 : Fin 2 → ℂ)⟩

theorem turn_ok {L : Lapack (Fin 2)} (h : L.EighOk) (θ : ℝ) : (turn θ).Ok (par L []) :=
  ⟨computes h _ (by simp [turn]) _ (by simp [turn]) rfl, rfl, by simp [turn, par], by simp [turn],
    show ∑ i : Fin 2, ‖(Pi.single 0 1 : Fin 2 → ℂ) i‖ ^ 2 = 1 by simp [Fin.sum_univ_two]⟩

/-- The state `i`. -/
def ket (i : Fin 2) : Matrix (Fin 2) (Fin 1) ℂ := fun j _ => if j = i then 1 else 0

theorem ket_norm (i : Fin 2) : ∑ j, ‖ket i j 0‖ ^ 2 = 1 := by
  fin_cases i <;> simp [ket, Fin.sum_univ_two]

theorem evolve_turn (L : Lapack (Fin 2)) (θ : ℝ) : evolve ((turn θ).hamiltonians (par L []).ctrl) = rot θ := by
  show NormedSpace.exp (((1 : ℝ) : ℂ) • ((-Complex.I) • hamiltonian 0 (par L []).ctrl [θ, 0])) * 1 = _
  have hg : ((1 : ℝ) : ℂ) • ((-Complex.I) • hamiltonian 0 (par L []).ctrl [θ, 0]) =
      (!![0, -Complex.I * θ; -Complex.I * θ, 0] : Matrix (Fin 2) (Fin 2) ℂ) := by
    ext i j
    fin_cases i <;> fin_cases j <;> simp [hamiltonian, par]
  rw [hg, exp_rot, Matrix.mul_one]

theorem evolve_turns {L : Lapack (Fin 2)} (h : L.EighOk) (θ : ℝ) (θs : List ℝ) :
    evolve (((turn θ).play (θs.map turn)).hamiltonians (par L []).ctrl) = rot (θ + θs.sum) ∧
      ((turn θ).play (θs.map turn)).goal = (Pi.single 0 1 : Fin 2 → ℂ) := by
  induction θs generalizing θ with
  | nil => exact ⟨by simpa [Preparation.play] using evolve_turn L θ, rfl⟩
  | cons x l ih =>
    obtain ⟨e1, e2⟩ := ih x
    have hok : ((turn x).play (l.map turn)).Ok (par L []) := Preparation.play_ok _ _ fun k hk => by
      rcases List.mem_cons.mp hk with rfl | hk
      · exact turn_ok h x
      · obtain ⟨y, -, rfl⟩ := List.mem_map.mp hk
        exact turn_ok h y
    refine ⟨?_, e2⟩
    have := ((turn_ok h θ).andThen hok).2
    refine this.trans ?_
    rw [e1, evolve_turn, rot_mul, List.sum_cons]
    congr 1
    ring

/-- Rotations one after the other: the angles add up. -/
theorem turns {L : Lapack (Fin 2)} (h : L.EighOk) (b : Bool) (θ : ℝ) (θs : List ℝ) :
    ((turn θ).play (θs.map turn)).infidelity (par L []) b (ket 0) = .ok (Real.sin (θ + θs.sum) ^ 2) := by
  have hok : ((turn θ).play (θs.map turn)).Ok (par L []) := Preparation.play_ok _ _ fun k hk => by
    rcases List.mem_cons.mp hk with rfl | hk
    · exact turn_ok h θ
    · obtain ⟨y, -, rfl⟩ := List.mem_map.mp hk
      exact turn_ok h y
  rw [hok.value b (ket 0)]
  unfold away
  rw [← embed_inner, (evolve_turns h θ θs).1, (evolve_turns h θ θs).2]
  have : ∑ i : Fin 2, star ((Pi.single 0 1 : Fin 2 → ℂ) i) * (rot (θ + θs.sum) * ket 0) i 0 = (Real.cos (θ + θs.sum) : ℂ) := by
    simp [Fin.sum_univ_two, Matrix.mul_apply, ket, rot]
  refine congrArg Except.ok ?_
  refine (congrArg (fun w : ℂ => 1 - ‖w‖ ^ 2) this).trans ?_
  simp only [Complex.norm_real, Real.norm_eq_abs, sq_abs]
  have := Real.sin_sq_add_cos_sq (θ + θs.sum)
  linarith

/-- A qubit of which only the energies are controlled. -/
noncomputable def still (L : Lapack (Fin 2)) : SPar (Fin 2) (Fin 2) := { par L [] with ctrl := [Z] }

noncomputable def wait (a : ℝ) : Preparation (Fin 2) none := ⟨[Z], [3], [[a]], (Pi.single 1 1 : Fin 2 → ℂ)⟩

theorem still_ctrl (L : Lapack (Fin 2)) : ∀ H ∈ (still L).ctrl, H.IsHermitian := by
  intro H hH
  simp only [still, List.mem_singleton] at hH
  rw [hH]
  exact Z_hermitian

theorem wait_ok {L : Lapack (Fin 2)} (h : L.EighOk) (a : ℝ) : (wait a).Ok (still L) :=
  ⟨⟨by simp [still], rfl, by simp [wait], Or.inl ⟨rfl, rfl⟩, Or.inr ⟨rfl, rfl, h, by simpa [wait] using Z_hermitian, still_ctrl L⟩⟩, rfl,
    by simp [wait, still], by simpa [wait] using Z_hermitian,
    show ∑ i : Fin 2, ‖(Pi.single 1 1 : Fin 2 → ℂ) i‖ ^ 2 = 1 by simp [Fin.sum_univ_two]⟩

theorem Z_norm : ‖Z‖ = 1 := by
  refine CStarRing.norm_of_mem_unitary (U := Z) ?_
  show Z ∈ Matrix.unitaryGroup (Fin 2) ℂ
  rw [Matrix.mem_unitaryGroup_iff]
  ext i j
  fin_cases i <;> fin_cases j <;> simp [Z, Matrix.mul_apply, Fin.sum_univ_two]

end Ex156

open Ex156 Ex115 in
/-- **C156** The bound for sequences cannot be improved: `r` pulses with the same error may have an infidelity of almost `r²` times that of
one of them, and the errors of two pulses may cancel. -/
theorem c156_attained (L : Lapack (Fin 2)) (h : L.EighOk) (b : Bool) (r : Nat) (hr : 0 < r) (q : ℝ) (hq : q < r ^ 2) :
    ∃ (θ c c₁ : ℝ), ((turn θ).play (List.replicate (r - 1) (turn θ))).infidelity (par L []) b (ket 0) = .ok c ∧
      (turn θ).infidelity (par L []) b (ket 0) = .ok c₁ ∧ 0 < c₁ ∧ q * c₁ < c ∧ (turn (-θ)).infidelity (par L []) b (ket 0) = .ok c₁ ∧
      ((turn θ).andThen (turn (-θ))).infidelity (par L []) b (ket 0) = .ok 0 := by
  obtain ⟨θ, h1, h2⟩ := sin_repeated r hr q hq
  have e1 := turns h b θ (List.replicate (r - 1) θ)
  have e2 := turns h b θ []
  have e3 := turns h b (-θ) []
  have e4 := turns h b θ [-θ]
  have hs : θ + (r - 1 : ℕ) • θ = r * θ := by
    rw [nsmul_eq_mul, Nat.cast_sub hr]
    push_cast
    ring
  rw [List.map_replicate, List.sum_replicate, hs] at e1
  simp only [List.map_nil, List.sum_nil, add_zero, Real.sin_neg, neg_sq] at e2 e3
  simp only [List.map_cons, List.map_nil, List.sum_cons, List.sum_nil, add_zero, add_neg_cancel, Real.sin_zero] at e4
  exact ⟨θ, _, _, e1, e2, by positivity, h2, e3, by rw [show (0 : ℝ) ^ 2 = 0 by norm_num] at e4; exact e4⟩

open Ex156 Ex115 in
/-- **C156** The bound for conserved quantities is attained: a control of the energies only never leads from one state to the other. -/
theorem c156_conserved_attained (L : Lapack (Fin 2)) (h : L.EighOk) (b : Bool) (a : ℝ) :
    ∃ c : ℝ, (wait a).infidelity (still L) b (ket 0) = .ok c ∧ c = 1 ∧
      ‖expectation Z (embed none (wait a).goal) - expectation Z (ket 0)‖ ^ 2 = 4 * ‖Z‖ ^ 2 * c := by
  have hcs : ∀ l, (none : Option (List (Fin 2))) = some l → l.Nodup := by simp
  obtain ⟨c, e1, e2⟩ := c156_conserved (still L) (still_ctrl L) none hcs b (ket 0) (ket_norm 0) (wait a) (wait_ok h a) Z
    (by simp [wait]) (by simp [still])
  have hd : expectation Z (embed none (wait a).goal) - expectation Z (ket 0) = -2 := by
    have e : embed none (wait a).goal = ket 1 := by
      ext i j
      show ∑ x : Fin 2, (if x = i then (Pi.single 1 1 : Fin 2 → ℂ) x else 0) = _
      fin_cases i <;> simp [ket]
    rw [e]
    simp [expectation, ket, Z, Matrix.mul_apply]
    norm_num
  have hc1 : c ≤ 1 := by
    rw [(wait_ok h a).value] at e1
    rw [← Except.ok.inj e1]
    unfold away
    nlinarith [sq_nonneg ‖inner ℂ (vec (embed none (wait a).goal)) (vec (evolve ((wait a).hamiltonians (still L).ctrl) * ket 0))‖]
  rw [hd, Z_norm] at e2
  norm_num at e2
  have hc : c = 1 := le_antisymm hc1 e2
  refine ⟨c, e1, hc, ?_⟩
  rw [hd, Z_norm, hc]
  norm_num

/-! ## Examples -/

namespace Ex156
open Ex115

/-- A drifting pulse of two steps which should lead to the state 1. -/
noncomputable def pulse : Preparation (Fin 2) (some [1]) := ⟨[Z, 0], [1, 2], [[3, 4], [5, 6]], (fun _ => 1 : Fin 1 → ℂ)⟩

theorem pulse_ok {L : Lapack (Fin 2)} (h : L.EighOk) : pulse.Ok (par L []) :=
  ⟨computes h _ (by simpa [pulse] using Z_hermitian) _ (by simp [pulse]) rfl, rfl, by simp [pulse, par],
    by simpa [pulse] using Z_hermitian, show ∑ i : Fin 1, ‖(1 : ℂ)‖ ^ 2 = 1 by simp⟩

noncomputable def gate : Gate (Fin 2) (some [1]) := ⟨[Z], [2], [[7, 8]], (1 : Matrix (Fin 1) (Fin 1) ℂ)⟩

theorem gate_ok {L : Lapack (Fin 2)} (h : L.EighOk) : gate.Ok (par L []) :=
  ⟨computes h _ (by simpa [gate] using Z_hermitian) _ (by simp [gate]) rfl, rfl, by simp [gate, par],
    by simpa [gate] using Z_hermitian, one_mem _⟩

example (cl : Closest) : ∃ (L : Lapack (Fin 2)) (c c₁ c₂ d e : ℝ) (cg : List ℝ), (pulse.play [pulse, pulse]).infidelity (par L []) true (ket 0) = .ok c ∧
    √c ≤ (cg.map Real.sqrt).sum ∧ cg.length = 3 ∧ pulse.infidelity (par L []) true (ket 0) = .ok c₁ ∧
    gate.infidelity cl false (par L []) = .ok c₂ ∧ (pulse.andThen (gate.prepares pulse.goal)).infidelity (par L []) true (ket 0) = .ok d ∧
    √d ≤ √c₁ + √(dim (some [(1 : Fin 2)]) * c₂) ∧ (pulse.andThen pulse).infidelity (par L []) true (ket 0) = .ok e := by
  obtain ⟨L, hE, -, -, -⟩ := lapack_exists (Fin 2)
  have hcs : ∀ l, some [(1 : Fin 2)] = some l → l.Nodup := by rintro _ ⟨⟩; simp
  obtain ⟨c, cg, f1, f2, -, -, f5⟩ := c156_sequence (par L []) (Ex93.ctrl_hermitian L) (some [1]) hcs true (ket 0) (ket_norm 0) pulse
    [pulse, pulse] (by simp [pulse_ok hE])
  obtain ⟨c₁, c₂, d, g1, g2, g3, -, -, g6⟩ := c156_gate (par L []) rfl (Ex93.ctrl_hermitian L) cl (some [1]) hcs false true (Or.inl rfl) (ket 0)
    (ket_norm 0) pulse (pulse_ok hE) gate (gate_ok hE)
  obtain ⟨-, -, e, -, -, k3, -⟩ := c156_not_hidden (par L []) (Ex93.ctrl_hermitian L) (some [1]) hcs true (ket 0) (ket_norm 0) pulse
    pulse (pulse_ok hE) (pulse_ok hE)
  exact ⟨L, c, c₁, c₂, d, e, cg, f1, f5, by simpa [Preparation.single] using (congrArg List.length f2).symm, g1, g2, g3, g6, k3⟩

/-- A pulse which does not do enough: three units of time with an amplitude of 1/10 do not lead from the state 0 to the state 1. -/
example (b : Bool) : ∃ (L : Lapack (Fin 2)) (c : ℝ),
    Preparation.infidelity (par L []) b (ket 0) (⟨[0], [3], [[1 / 10, 0]], (Pi.single 1 1 : Fin 2 → ℂ)⟩ : Preparation (Fin 2) none) = .ok c ∧
      7 / 10 ≤ √c := by
  obtain ⟨L, hE, -, -, -⟩ := lapack_exists (Fin 2)
  have hcs : ∀ l, (none : Option (List (Fin 2))) = some l → l.Nodup := by simp
  obtain ⟨c, e1, e2⟩ := c156_speed_limit (par L []) (Ex93.ctrl_hermitian L) none hcs b (ket 0) (ket_norm 0)
    (⟨[0], [3], [[1 / 10, 0]], (Pi.single 1 1 : Fin 2 → ℂ)⟩ : Preparation (Fin 2) none)
    ⟨computes hE _ (by simp) _ (by simp) rfl, rfl, by simp [par], by simp,
      show ∑ i : Fin 2, ‖(Pi.single 1 1 : Fin 2 → ℂ) i‖ ^ 2 = 1 by simp [Fin.sum_univ_two]⟩ (fun _ => 0)
  refine ⟨L, c, e1, ?_⟩
  have h1 : ∑ i : Fin 2, star ((Pi.single 1 1 : Fin 2 → ℂ) i) * ket 0 i 0 = 0 := by simp [ket]
  have h2 : hamiltonian 0 (par L []).ctrl [1 / 10, 0] = (1 / 10 : ℂ) • (!![0, 1; 1, 0] : Matrix (Fin 2) (Fin 2) ℂ) := by
    ext i j
    fin_cases i <;> fin_cases j <;> simp [hamiltonian, par]
  have h3 : ‖(!![0, 1; 1, 0] : Matrix (Fin 2) (Fin 2) ℂ)‖ = 1 := by
    refine CStarRing.norm_of_mem_unitary ?_
    show _ ∈ Matrix.unitaryGroup (Fin 2) ℂ
    rw [Matrix.mem_unitaryGroup_iff]
    ext i j
    fin_cases i <;> fin_cases j <;> simp [Matrix.mul_apply, Fin.sum_univ_two]
  have h4 : √(1 - ‖∑ i : Fin 2, star ((Pi.single 1 1 : Fin 2 → ℂ) i) * ket 0 i 0‖ ^ 2) ≤
      √c + (|(3 : ℝ)| * ‖hamiltonian 0 (par L []).ctrl [1 / 10, 0] - ((0 : ℝ) : ℂ) • 1‖ + 0) := e2
  rw [h1, h2, Complex.ofReal_zero, zero_smul, sub_zero, norm_smul, h3, norm_zero] at h4
  norm_num at h4
  linarith

end Ex156

end

end Verif.Sim
