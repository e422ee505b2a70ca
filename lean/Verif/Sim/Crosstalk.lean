import Verif.Sim.Truncation
import Verif.Sim.Subsystems

/-!
# C145: Hamiltonians which are not exactly known, and crosstalk
-/

namespace Verif.Sim
open Verif Verif.Transfer Verif.Operator Verif.Solver Verif.Cost Matrix
open scoped Kronecker Matrix.Norms.L2Operator

variable {n k m l : Type} [Fintype n] [DecidableEq n] [Fintype k] [DecidableEq k]

/-! ## Specification -/

/-- The accumulated distance of two sequences of Hamiltonians: the sum of duration times operator norm of the difference. -/
noncomputable def apartness (L L' : List (ℝ × Matrix n n ℂ)) : ℝ := (List.zipWith (fun x y => |x.1| * ‖x.2 - y.2‖) L L').sum

/-- The solver `p` describes the two subsystems of `a` and `b`, with an interaction: `D` is added to the drift and `X` to the control
Hamiltonians, for example the action of the control of one subsystem on the other one. -/
structure Interacting (p : SPar (n × k) (m × l)) (a : SPar n m) (b : SPar k l) (D X : List (Matrix (n × k) (n × k) ℂ)) : Prop where
  init : p.init = a.init ⊗ₖ b.init
  drift : p.drift = List.zipWith (fun H E => H + E)
    (List.zipWith (fun A B => A ⊗ₖ (1 : Matrix k k ℂ) + (1 : Matrix n n ℂ) ⊗ₖ B) a.drift b.drift) D
  ctrl : p.ctrl = List.zipWith (fun H E => H + E)
    (a.ctrl.map (fun A => A ⊗ₖ (1 : Matrix k k ℂ)) ++ b.ctrl.map fun B => (1 : Matrix n n ℂ) ⊗ₖ B) X
  steps : D.length = a.drift.length
  controls : X.length = a.ctrl.length + b.ctrl.length

/-- The accumulated norm of the interaction under the amplitudes `w`. -/
noncomputable def crosstalk (D X : List (Matrix n n ℂ)) (τ : List ℝ) (w : Solver.Pulse) : ℝ :=
  (List.zipWith (fun s a => |s| * ‖hamiltonian a.1 X a.2‖) τ (D.zip w)).sum

/-! ## Lemmas -/

theorem evolve_near : ∀ (N : List (ℝ × Matrix n n ℂ × Matrix n n ℂ)), (∀ x ∈ N, x.2.1.IsHermitian) → (∀ x ∈ N, x.2.2.IsHermitian) →
    ‖evolve (N.map fun x => (x.1, x.2.1)) - evolve (N.map fun x => (x.1, x.2.2))‖ ≤ (N.map fun x => |x.1| * ‖x.2.1 - x.2.2‖).sum := by
  intro N h hg
  induction N using List.reverseRecOn with
  | nil => simp [evolve]
  | append_singleton L x ih =>
    have hx := h x (by simp)
    have hx' := hg x (by simp)
    have hl := ih (fun y hy => h y (by simp [hy])) fun y hy => hg y (by simp [hy])
    rw [List.map_append, List.map_append, List.map_append, List.map_singleton, List.map_singleton, evolve_append, evolve_append, List.sum_append]
    set P := NormedSpace.exp (((x.1 : ℝ) : ℂ) • ((-Complex.I) • x.2.1)) with hP
    set Q := NormedSpace.exp (((x.1 : ℝ) : ℂ) • ((-Complex.I) • x.2.2)) with hQ
    set V := evolve (L.map fun x => (x.1, x.2.1)) with hV
    set W := evolve (L.map fun x => (x.1, x.2.2)) with hW
    have hPu : P ∈ unitary (Matrix n n ℂ) := step_unitary hx
    have hWu : W ∈ unitary (Matrix n n ℂ) := by
      refine evolve_unitary _ fun y hy => ?_
      obtain ⟨z, hz, rfl⟩ := List.mem_map.mp hy
      exact hg z (by simp [hz])
    have h1 : ‖P - Q‖ ≤ |x.1| * ‖x.2.1 - x.2.2‖ := by
      have := exp_lip (A := ((x.1 : ℝ) : ℂ) • ((-Complex.I) • x.2.1)) (B := ((x.1 : ℝ) : ℂ) • ((-Complex.I) • x.2.2))
        (by rw [Matrix.conjTranspose_smul, skew_of_hermitian hx]; simp) (by rw [Matrix.conjTranspose_smul, skew_of_hermitian hx']; simp)
      rw [← smul_sub, ← smul_sub, norm_smul, norm_smul] at this
      simp only [Complex.norm_real, norm_neg, Complex.norm_I, one_mul, Real.norm_eq_abs] at this
      exact this
    have e : P * V - Q * W = P * (V - W) + (P - Q) * W := by noncomm_ring
    rw [e]
    refine (norm_add_le _ _).trans ?_
    rw [CStarRing.norm_mem_unitary_mul _ hPu, CStarRing.norm_mul_mem_unitary _ hWu]
    simp
    linarith

/-- Two sequences of Hamiltonians with the same durations. -/
theorem evolve_apart {L L' : List (ℝ × Matrix n n ℂ)} (ht : L.map Prod.fst = L'.map Prod.fst) (h : ∀ x ∈ L, x.2.IsHermitian)
    (h' : ∀ x ∈ L', x.2.IsHermitian) : ‖evolve L - evolve L'‖ ≤ apartness L L' := by
  have hlen : L.length = L'.length := by simpa using congrArg List.length ht
  set N := List.zipWith (fun x y => (x.1, x.2, y.2)) L L' with hN
  have e1 : N.map (fun x => (x.1, x.2.1)) = L := by
    refine List.ext_getElem (by simp [hN, hlen]) fun i h1 h2 => ?_
    simp [hN]
  have e2 : N.map (fun x => (x.1, x.2.2)) = L' := by
    refine List.ext_getElem (by simp [hN, hlen]) fun i h1 h2 => ?_
    have h3 : i < L.length := by omega
    have : L[i].1 = L'[i].1 := by
      have := List.getElem_of_eq ht (i := i) (by simpa using h3)
      simpa using this
    simp [hN, this]
  have e3 : (N.map fun x => |x.1| * ‖x.2.1 - x.2.2‖) = List.zipWith (fun x y => |x.1| * ‖x.2 - y.2‖) L L' := by
    refine List.ext_getElem (by simp [hN, hlen]) fun i h1 h2 => ?_
    simp [hN]
  have := evolve_near N (by
    intro x hx
    exact h (x.1, x.2.1) (e1 ▸ List.mem_map.mpr ⟨x, hx, rfl⟩)) (by
    intro x hx
    exact h' (x.1, x.2.2) (e2 ▸ List.mem_map.mpr ⟨x, hx, rfl⟩))
  rw [e1, e2, e3] at this
  exact this

theorem foldl_evolve (L : List (ℝ × Matrix n n ℂ)) (I : Matrix n m ℂ) :
    L.foldl (fun F x => NormedSpace.exp (((x.1 : ℝ) : ℂ) • ((-Complex.I) • x.2)) * F) I = evolve L * I := by
  induction L using List.reverseRecOn with
  | nil => simp [evolve]
  | append_singleton L x ih => rw [List.foldl_append, ih, evolve_append, Matrix.mul_assoc]; rfl

theorem Computes.steps_totals {p : SPar n m} {τ : List ℝ} (h : Computes p τ) (u : Solver.Pulse) (hu : u.length = τ.length) :
    p.bare.steps τ u = (totals p τ u).map fun x => NormedSpace.exp (((x.1 : ℝ) : ℂ) • ((-Complex.I) • x.2)) := by
  rw [h.steps_eq _ hu]
  unfold totals
  rw [← List.map_uncurry_zip_eq_zipWith, ← List.map_uncurry_zip_eq_zipWith, List.map_map]
  rfl

/-- The propagators at all times. -/
theorem Computes.evolves {p : SPar n m} {τ : List ℝ} (h : Computes p τ) (u : Solver.Pulse) (hu : u.length = τ.length)
    (hrow : ∀ row ∈ u, row.length = p.ctrl.length) :
    ∃ f, (readFwd p.bare.cfg (fresh p.bare.cfg τ u)).1 = .ok f ∧ f.length = τ.length + 1 ∧
      ∀ i ≤ τ.length, f[i]? = some (evolve ((totals p τ u).take i) * p.init) := by
  obtain ⟨f, e1, e2⟩ := h.fwd u hu hrow
  have hl : (p.bare.steps τ u).length = τ.length := steps_length _ _ _
  refine ⟨f, e1, by rw [e2.1, hl], fun i hi => ?_⟩
  rw [isForward_unique e2 i (by omega), h.steps_totals u hu, ← List.map_take, List.foldl_map, foldl_evolve]

omit [Fintype n] [DecidableEq n] in
theorem totals_length {p : SPar n m} {τ : List ℝ} (h : p.drift.length = τ.length) (u : Solver.Pulse) (hu : u.length = τ.length) :
    (totals p τ u).length = τ.length := by
  simp [totals, h, hu]

omit [Fintype n] [DecidableEq n] in
theorem totals_times {p : SPar n m} {τ : List ℝ} (h : p.drift.length = τ.length) (u : Solver.Pulse) (hu : u.length = τ.length) :
    (totals p τ u).map Prod.fst = τ := by
  refine List.ext_getElem (by simp [totals, h, hu]) fun i h1 h2 => ?_
  simp [totals]

omit [DecidableEq n] in
/-- The state infidelity is the squared distance of the state to the line of the target. -/
theorem state_near {ψ φ : n → ℂ} {t : n → ℂ} (ht : ∑ i, ‖t i‖ ^ 2 = 1) (hψ : ∑ i, ‖ψ i‖ ^ 2 = 1) (hφ : ∑ i, ‖φ i‖ ^ 2 = 1) :
    √(1 - ‖∑ i, t i * ψ i‖ ^ 2) ≤ √(1 - ‖∑ i, t i * φ i‖ ^ 2) + √(∑ i, ‖ψ i - φ i‖ ^ 2) := by
  let P : (n → ℂ) → EuclideanSpace ℂ n := fun χ => WithLp.toLp 2 fun i => χ i - (∑ j, t j * χ j) * star (t i)
  have hP : ∀ χ, ‖P χ‖ = √(∑ i, ‖χ i‖ ^ 2 - ‖∑ j, t j * χ j‖ ^ 2) := by
    intro χ
    rw [EuclideanSpace.norm_eq, ← overlap t χ ht]
  have hadd : P ψ = P φ + P (fun i => ψ i - φ i) := by
    ext i
    simp only [P, PiLp.add_apply, mul_sub, Finset.sum_sub_distrib]
    ring
  have h1 := hP ψ
  have h2 := hP φ
  rw [hψ] at h1
  rw [hφ] at h2
  rw [← h1, ← h2, hadd]
  refine (norm_add_le _ _).trans (add_le_add le_rfl ?_)
  rw [hP]
  refine Real.sqrt_le_sqrt ?_
  have := sq_nonneg ‖∑ j, t j * (ψ j - φ j)‖
  linarith

omit [Fintype n] [DecidableEq n] in
theorem sel_injective {cs : Option (List n)} (hcs : ∀ l, cs = some l → l.Nodup) : Function.Injective (sel cs) := by
  cases cs with
  | none => exact Function.injective_id
  | some l => exact List.nodup_iff_injective_get.mp (hcs l rfl)

omit [DecidableEq n] in
/-- The same on a subspace. -/
theorem state_near_sub {cs : Option (List n)} (hcs : ∀ l, cs = some l → l.Nodup) {T : CompIdx cs → ℂ} (hT : ∑ i, ‖T i‖ ^ 2 = 1) {ψ φ : n → ℂ}
    (hψ : ∑ i, ‖ψ i‖ ^ 2 = 1) (hφ : ∑ i, ‖φ i‖ ^ 2 = 1) :
    √(1 - ‖∑ i, T i * ψ (sel cs i)‖ ^ 2) ≤ √(1 - ‖∑ i, T i * φ (sel cs i)‖ ^ 2) + √(∑ i, ‖ψ i - φ i‖ ^ 2) := by
  have hs := sel_injective hcs
  set t : n → ℂ := Function.extend (sel cs) T 0 with ht
  have h0 : ∀ i, i ∉ Set.range (sel cs) → t i = 0 := by
    intro i hi
    rw [ht, Function.extend_apply' _ _ _ hi]
    rfl
  have h1 : ∀ a, t (sel cs a) = T a := fun a => hs.extend_apply _ _ _
  have e1 : ∑ i, ‖t i‖ ^ 2 = 1 := by
    rw [← hT]
    symm
    exact Fintype.sum_of_injective (sel cs) hs _ _ (fun i hi => by simp [h0 i hi]) fun a => by rw [h1]
  have e2 : ∀ χ : n → ℂ, ∑ i, T i * χ (sel cs i) = ∑ i, t i * χ i := fun χ =>
    Fintype.sum_of_injective (sel cs) hs _ _ (fun i hi => by simp [h0 i hi]) fun a => by rw [h1]
  rw [e2, e2]
  exact state_near e1 hψ hφ

/-- Columns and the operator norm. -/
theorem column_le (A : Matrix n n ℂ) (v : Matrix n (Fin 1) ℂ) : √(∑ i, ‖(A * v) i 0‖ ^ 2) ≤ ‖A‖ * √(∑ i, ‖v i 0‖ ^ 2) := by
  have := Matrix.l2_opNorm_mulVec A (WithLp.toLp 2 fun i => v i 0)
  rw [EuclideanSpace.norm_eq, EuclideanSpace.norm_eq] at this
  exact this

theorem unitary_column {U : Matrix n n ℂ} (hU : U ∈ Matrix.unitaryGroup n ℂ) (v : Matrix n (Fin 1) ℂ) :
    ∑ i, ‖(U * v) i 0‖ ^ 2 = ∑ i, ‖v i 0‖ ^ 2 := by
  have h : ∀ w : Matrix n (Fin 1) ℂ, ((∑ i, ‖w i 0‖ ^ 2 : ℝ) : ℂ) = (wᴴ * w) 0 0 := by
    intro w
    rw [Matrix.mul_apply]
    push_cast
    refine Finset.sum_congr rfl fun i _ => ?_
    rw [Matrix.conjTranspose_apply, ← Complex.ofReal_pow, ← Complex.normSq_eq_norm_sq]
    exact Complex.normSq_eq_conj_mul_self
  have : ((∑ i, ‖(U * v) i 0‖ ^ 2 : ℝ) : ℂ) = ((∑ i, ‖v i 0‖ ^ 2 : ℝ) : ℂ) := by
    rw [h, h, Matrix.conjTranspose_mul, Matrix.mul_assoc, ← Matrix.mul_assoc Uᴴ, show Uᴴ * U = 1 from Matrix.mem_unitaryGroup_iff'.mp hU,
      Matrix.one_mul]
  exact_mod_cast this

/-! ## C145 -/

/-- **C145** (propagators) How far the propagators of two solvers with different Hamiltonians or pulses get apart, at all times. -/
theorem c145_propagators (p r : SPar n n) (hi : r.init = p.init) (hiu : p.init ∈ Matrix.unitaryGroup n ℂ)
    (hd : ∀ H ∈ p.drift, H.IsHermitian) (hc : ∀ H ∈ p.ctrl, H.IsHermitian) (hd' : ∀ H ∈ r.drift, H.IsHermitian)
    (hc' : ∀ H ∈ r.ctrl, H.IsHermitian) (τ : List ℝ) (h : Computes p τ) (h' : Computes r τ) (u v : Solver.Pulse) (hu : u.length = τ.length)
    (hv : v.length = τ.length) (hru : ∀ row ∈ u, row.length = p.ctrl.length) (hrv : ∀ row ∈ v, row.length = r.ctrl.length) :
    ∃ f f', (readFwd p.bare.cfg (fresh p.bare.cfg τ u)).1 = .ok f ∧ (readFwd r.bare.cfg (fresh r.bare.cfg τ v)).1 = .ok f' ∧
      f.length = τ.length + 1 ∧ f'.length = τ.length + 1 ∧
      ∀ i ≤ τ.length, ∃ F F', f[i]? = some F ∧ f'[i]? = some F' ∧
        ‖F - F'‖ ≤ apartness ((totals p τ u).take i) ((totals r τ v).take i) := by
  obtain ⟨f, e1, e2, e3⟩ := h.evolves u hu hru
  obtain ⟨f', g1, g2, g3⟩ := h'.evolves v hv hrv
  refine ⟨f, f', e1, g1, e2, g2, fun i hi' => ⟨_, _, e3 i hi', g3 i hi', ?_⟩⟩
  rw [hi, ← Matrix.sub_mul, CStarRing.norm_mul_mem_unitary _ (show p.init ∈ unitary _ from hiu)]
  refine evolve_apart ?_ (fun x hx => totals_hermitian hd hc τ u x (List.mem_of_mem_take hx)) fun x hx =>
    totals_hermitian hd' hc' τ v x (List.mem_of_mem_take hx)
  rw [List.map_take, List.map_take, totals_times h.drift u hu, totals_times h'.drift v hv]

/-- **C145** (gates) The square roots of the infidelities which two solvers report differ at most by the accumulated distance of their
Hamiltonians. -/
theorem c145_gates (p r : SPar n n) (hi : r.init = p.init) (hiu : p.init ∈ Matrix.unitaryGroup n ℂ)
    (hd : ∀ H ∈ p.drift, H.IsHermitian) (hc : ∀ H ∈ p.ctrl, H.IsHermitian) (hd' : ∀ H ∈ r.drift, H.IsHermitian)
    (hc' : ∀ H ∈ r.ctrl, H.IsHermitian) (τ : List ℝ) (h : Computes p τ) (h' : Computes r τ) (u v : Solver.Pulse) (hu : u.length = τ.length)
    (hv : v.length = τ.length) (hru : ∀ row ∈ u, row.length = p.ctrl.length) (hrv : ∀ row ∈ v, row.length = r.ctrl.length)
    (cl : Closest) (cs : Option (List n)) (hcs : ∀ l, cs = some l → l.Nodup) (hne : Nonempty (CompIdx cs)) (mcu : Bool)
    (hm : mcu = false ∨ cs = none) (T : Matrix (CompIdx cs) (CompIdx cs) ℂ) (hT : T ∈ Matrix.unitaryGroup (CompIdx cs) ℂ) :
    ∃ c c' : ℝ, (costOn (opCosts cl cs T mcu) p.bare.cfg (fresh p.bare.cfg τ u)).1 = .ok c ∧
      (costOn (opCosts cl cs T mcu) r.bare.cfg (fresh r.bare.cfg τ v)).1 = .ok c' ∧
      |√c - √c'| ≤ apartness (totals p τ u) (totals r τ v) := by
  obtain ⟨f, e1, e2⟩ := h.final_evolve u hu hru
  obtain ⟨f', e3, e4⟩ := h'.final_evolve v hv hrv
  have hU := mul_mem (evolve_unitary _ (totals_hermitian hd hc τ u)) hiu
  have hV := mul_mem (evolve_unitary _ (totals_hermitian hd' hc' τ v)) hiu
  rw [hi] at e4
  obtain ⟨b1, b2⟩ := infidelity_near cl hcs hne hm hT hU hV
  rw [← Matrix.sub_mul, CStarRing.norm_mul_mem_unitary _ (show p.init ∈ unitary _ from hiu)] at b1 b2
  have hb := evolve_apart (by rw [totals_times h.drift u hu, totals_times h'.drift v hv]) (totals_hermitian hd hc τ u)
    (totals_hermitian hd' hc' τ v)
  refine ⟨_, _, costOn_last cl cs T mcu _ _ e1 e2, costOn_last cl cs T mcu _ _ e3 e4, ?_⟩
  rw [abs_sub_le_iff]
  exact ⟨by linarith, by linarith⟩

/-- **C145** (states) The same for the infidelity of a state. -/
theorem c145_states (p r : SPar n (Fin 1)) (hi : r.init = p.init) (hiu : ∑ i, ‖p.init i 0‖ ^ 2 = 1)
    (hd : ∀ H ∈ p.drift, H.IsHermitian) (hc : ∀ H ∈ p.ctrl, H.IsHermitian) (hd' : ∀ H ∈ r.drift, H.IsHermitian)
    (hc' : ∀ H ∈ r.ctrl, H.IsHermitian) (τ : List ℝ) (h : Computes p τ) (h' : Computes r τ) (u v : Solver.Pulse) (hu : u.length = τ.length)
    (hv : v.length = τ.length) (hru : ∀ row ∈ u, row.length = p.ctrl.length) (hrv : ∀ row ∈ v, row.length = r.ctrl.length)
    (cs : Option (List n)) (hcs : ∀ l, cs = some l → l.Nodup) (T : Matrix (Fin 1) (CompIdx cs) ℂ) (hT : ∑ i, ‖T 0 i‖ ^ 2 = 1) (b b' : Bool) :
    ∃ c c' : ℝ, (costOn (stateCosts cs T b) p.bare.cfg (fresh p.bare.cfg τ u)).1 = .ok c ∧
      (costOn (stateCosts cs T b') r.bare.cfg (fresh r.bare.cfg τ v)).1 = .ok c' ∧
      |√c - √c'| ≤ apartness (totals p τ u) (totals r τ v) := by
  obtain ⟨f, e1, e2, e3⟩ := h.evolves u hu hru
  obtain ⟨f', g1, g2, g3⟩ := h'.evolves v hv hrv
  have e4 := e3 _ le_rfl
  have g4 := g3 _ le_rfl
  rw [List.take_of_length_le (by rw [totals_length h.drift u hu])] at e4
  rw [List.take_of_length_le (by rw [totals_length h'.drift v hv]), hi] at g4
  have e5 : f.getLast? = some (evolve (totals p τ u) * p.init) := by
    rw [List.getLast?_eq_getElem?, e2, Nat.add_sub_cancel, e4]
  have g5 : f'.getLast? = some (evolve (totals r τ v) * p.init) := by
    rw [List.getLast?_eq_getElem?, g2, Nat.add_sub_cancel, g4]
  have hU := unitary_column (evolve_unitary _ (totals_hermitian hd hc τ u)) p.init
  have hV := unitary_column (evolve_unitary _ (totals_hermitian hd' hc' τ v)) p.init
  rw [hiu] at hU hV
  have hcost : ∀ (b : Bool) (f : List (Matrix n (Fin 1) ℂ)) (ψ : Matrix n (Fin 1) ℂ), f.getLast? = some ψ →
      stateCosts cs T b f = .ok (1 - ‖∑ i, T 0 i * ψ (sel cs i) 0‖ ^ 2) := by
    intro b f ψ hf
    unfold stateCosts
    rw [last_ok hf]
    simp only [bind, Except.bind]
    rw [stateFid_eq]
    rfl
  refine ⟨_, _, (costOn_fwd e1).trans (hcost b _ _ e5), (costOn_fwd g1).trans (hcost b' _ _ g5), ?_⟩
  have b1 := state_near_sub hcs hT hU hV
  have b2 := state_near_sub hcs hT hV hU
  have b3 := column_le (evolve (totals p τ u) - evolve (totals r τ v)) p.init
  rw [hiu, Real.sqrt_one, mul_one, Matrix.sub_mul] at b3
  have b4 := b3.trans (evolve_apart (by rw [totals_times h.drift u hu, totals_times h'.drift v hv]) (totals_hermitian hd hc τ u)
    (totals_hermitian hd' hc' τ v))
  simp only [Matrix.sub_apply] at b4
  have b5 : √(∑ i, ‖(evolve (totals r τ v) * p.init) i 0 - (evolve (totals p τ u) * p.init) i 0‖ ^ 2) =
      √(∑ i, ‖(evolve (totals p τ u) * p.init) i 0 - (evolve (totals r τ v) * p.init) i 0‖ ^ 2) := by
    congr 1
    exact Finset.sum_congr rfl fun i _ => by rw [norm_sub_rev]
  rw [b5] at b2
  rw [abs_sub_le_iff]
  exact ⟨by linarith, by linarith⟩

/-! ### Crosstalk -/

/-- Two evolutions of the same initial operator. -/
theorem infidelity_near_evolve (cl : Closest) (mcu : Bool) [Nonempty n] {T I A B : Matrix n n ℂ} (hT : T ∈ Matrix.unitaryGroup n ℂ)
    (hI : I ∈ Matrix.unitaryGroup n ℂ) (hA : A ∈ Matrix.unitaryGroup n ℂ) (hB : B ∈ Matrix.unitaryGroup n ℂ) {d : ℝ} (hd : ‖A - B‖ ≤ d) :
    0 ≤ 1 - entFid cl (n := n) none T (A * I) mcu ∧
    |√(1 - entFid cl (n := n) none T (A * I) mcu) - √(1 - entFid cl (n := n) none T (B * I) mcu)| ≤ d := by
  obtain ⟨k1, k2⟩ := infidelity_near (n := n) (cs := none) cl (by simp) (inferInstanceAs (Nonempty n)) (mcu := mcu) (Or.inr rfl)
    (T := T) hT (mul_mem hA hI) (mul_mem hB hI)
  have e : ‖A * I - B * I‖ = ‖A - B‖ := by
    rw [← Matrix.sub_mul]
    exact CStarRing.norm_mul_mem_unitary _ (show I ∈ unitary _ from hI)
  rw [e] at k1 k2
  have := (c43_range cl mcu T _ hT (mul_mem hA hI)).2
  rw [abs_sub_le_iff]
  exact ⟨by linarith, by linarith, by linarith⟩

/-- The evolutions of subsystems without interaction. -/
theorem evolve_kron (N : List (ℝ × Matrix n n ℂ × Matrix k k ℂ)) :
    evolve (N.map fun x => (x.1, x.2.1 ⊗ₖ (1 : Matrix k k ℂ) + (1 : Matrix n n ℂ) ⊗ₖ x.2.2)) =
      evolve (N.map fun x => (x.1, x.2.1)) ⊗ₖ evolve (N.map fun x => (x.1, x.2.2)) := by
  induction N using List.reverseRecOn with
  | nil => simp [evolve]
  | append_singleton L x ih =>
    rw [List.map_append, List.map_append, List.map_append, List.map_singleton, List.map_singleton, List.map_singleton, evolve_append,
      evolve_append, evolve_append, ih, Matrix.mul_kronecker_mul, smul_add, smul_add, ← Matrix.smul_kronecker, ← Matrix.smul_kronecker,
      ← Matrix.kronecker_smul, ← Matrix.kronecker_smul, exp_apart]

omit [Fintype n] [DecidableEq n] in
theorem hamiltonian_add (H₀ E₀ : Matrix n n ℂ) (ctrl X : List (Matrix n n ℂ)) (hl : ctrl.length = X.length) (row : List ℝ) :
    hamiltonian (H₀ + E₀) (List.zipWith (fun H E => H + E) ctrl X) row = hamiltonian H₀ ctrl row + hamiltonian E₀ X row := by
  have : ∀ (row : List ℝ) (ctrl X : List (Matrix n n ℂ)), ctrl.length = X.length →
      (List.zipWith (fun (a : ℝ) H => (a : ℂ) • H) row (List.zipWith (fun H E => H + E) ctrl X)).sum =
        (List.zipWith (fun (a : ℝ) H => (a : ℂ) • H) row ctrl).sum + (List.zipWith (fun (a : ℝ) H => (a : ℂ) • H) row X).sum := by
    intro row
    induction row with
    | nil => simp
    | cons x row ih =>
      intro ctrl X hl
      cases ctrl with
      | nil =>
        cases X with
        | nil => simp
        | cons _ _ => simp at hl
      | cons H ctrl =>
        cases X with
        | nil => simp at hl
        | cons E X =>
          simp only [List.zipWith_cons_cons, List.sum_cons, ih ctrl X (by simpa using hl), smul_add]
          abel
  unfold hamiltonian
  rw [this row ctrl X hl]
  abel

/-- **C145** (crosstalk) Two subsystems with an interaction, and pulses for them which were found without it: the square root of the
infidelity of the pair of gates differs from that without interaction, `1 - (1 - c₁) (1 - c₂)`, at most by the accumulated norm of
the interaction. -/
theorem c145_crosstalk (cl : Closest) (cl₁ : Closest) (cl₂ : Closest) (mcu : Bool) (p : SPar (n × k) (n × k))
    (a : SPar n n) (b : SPar k k) (D X : List (Matrix (n × k) (n × k) ℂ)) (h : Interacting p a b D X) [Nonempty n] [Nonempty k]
    (hA : (∀ H ∈ a.drift, H.IsHermitian) ∧ ∀ H ∈ a.ctrl, H.IsHermitian) (hB : (∀ H ∈ b.drift, H.IsHermitian) ∧ ∀ H ∈ b.ctrl, H.IsHermitian)
    (hP : (∀ H ∈ p.drift, H.IsHermitian) ∧ ∀ H ∈ p.ctrl, H.IsHermitian)
    (hia : a.init ∈ Matrix.unitaryGroup n ℂ) (hib : b.init ∈ Matrix.unitaryGroup k ℂ) (τ : List ℝ) (hp : Computes p τ)
    (ha : Computes a τ) (hb : Computes b τ) (u v : Solver.Pulse) (hu : u.length = τ.length) (hv : v.length = τ.length)
    (hru : ∀ r ∈ u, r.length = a.ctrl.length) (hrv : ∀ r ∈ v, r.length = b.ctrl.length) (T₁ : Matrix n n ℂ) (T₂ : Matrix k k ℂ)
    (hT₁ : T₁ ∈ Matrix.unitaryGroup n ℂ) (hT₂ : T₂ ∈ Matrix.unitaryGroup k ℂ) :
    ∃ c₁ c₂ c : ℝ, (costOn (opCosts cl₁ none T₁ mcu) a.bare.cfg (fresh a.bare.cfg τ u)).1 = .ok c₁ ∧
      (costOn (opCosts cl₂ none T₂ mcu) b.bare.cfg (fresh b.bare.cfg τ v)).1 = .ok c₂ ∧
      (costOn (opCosts cl none (T₁ ⊗ₖ T₂) mcu) p.bare.cfg (fresh p.bare.cfg τ (together u v))).1 = .ok c ∧
      0 ≤ c ∧ |√c - √(1 - (1 - c₁) * (1 - c₂))| ≤ crosstalk D X τ (together u v) := by
  have hw : (together u v).length = τ.length := by simp [together, hu, hv]
  have hrw : ∀ r ∈ together u v, r.length = p.ctrl.length := by
    intro row hrow
    obtain ⟨i, hi, rfl⟩ := List.getElem_of_mem hrow
    simp only [together, List.getElem_zipWith, List.length_append, h.ctrl, List.length_zipWith, List.length_map, h.controls, min_self]
    rw [hru _ (List.getElem_mem _), hrv _ (List.getElem_mem _)]
  obtain ⟨fa, a1, a2⟩ := ha.final_evolve u hu hru
  obtain ⟨fb, b1, b2⟩ := hb.final_evolve v hv hrv
  obtain ⟨f, p1, p2⟩ := hp.final_evolve (together u v) hw hrw
  have la := totals_length ha.drift u hu
  have lb := totals_length hb.drift v hv
  have lp := totals_length hp.drift _ hw
  set N : List (ℝ × Matrix n n ℂ × Matrix k k ℂ) := List.zipWith (fun x y => (x.1, x.2, y.2)) (totals a τ u) (totals b τ v) with hN
  have lN : N.length = τ.length := by simp [hN, la, lb]
  have eA : N.map (fun x => (x.1, x.2.1)) = totals a τ u := by
    refine List.ext_getElem (by simp [lN, la]) fun i h1 h2 => ?_
    simp [hN]
  have eB : N.map (fun x => (x.1, x.2.2)) = totals b τ v := by
    refine List.ext_getElem (by simp [lN, lb]) fun i h1 h2 => ?_
    simp [hN, totals]
  set M := N.map fun x => (x.1, x.2.1 ⊗ₖ (1 : Matrix k k ℂ) + (1 : Matrix n n ℂ) ⊗ₖ x.2.2) with hM
  have lM : M.length = τ.length := by simp [hM, lN]
  have eM : evolve M = evolve (totals a τ u) ⊗ₖ evolve (totals b τ v) := by rw [hM, evolve_kron, eA, eB]
  have hua := evolve_unitary _ (totals_hermitian hA.1 hA.2 τ u)
  have hub := evolve_unitary _ (totals_hermitian hB.1 hB.2 τ v)
  have hiu : p.init ∈ Matrix.unitaryGroup (n × k) ℂ := by
    rw [h.init]
    exact Matrix.kronecker_mem_unitary hia hib
  have hMu : evolve M ∈ Matrix.unitaryGroup (n × k) ℂ := by
    rw [eM]
    exact Matrix.kronecker_mem_unitary hua hub
  have hMh : ∀ x ∈ M, x.2.IsHermitian := by
    intro x hx
    obtain ⟨y, hy, rfl⟩ := List.mem_map.mp hx
    have h1 : y.2.1.IsHermitian := totals_hermitian hA.1 hA.2 τ u (y.1, y.2.1) (eA ▸ List.mem_map.mpr ⟨y, hy, rfl⟩)
    have h2 : y.2.2.IsHermitian := totals_hermitian hB.1 hB.2 τ v (y.1, y.2.2) (eB ▸ List.mem_map.mpr ⟨y, hy, rfl⟩)
    show (_ + _ : Matrix _ _ ℂ)ᴴ = _
    rw [Matrix.conjTranspose_add, Matrix.conjTranspose_kronecker, Matrix.conjTranspose_kronecker, h1.eq, h2.eq, Matrix.conjTranspose_one,
      Matrix.conjTranspose_one]
  have hT : T₁ ⊗ₖ T₂ ∈ Matrix.unitaryGroup (n × k) ℂ := Matrix.kronecker_mem_unitary hT₁ hT₂
  have hdist : ‖evolve (totals p τ (together u v)) - evolve M‖ ≤ crosstalk D X τ (together u v) := by
    refine (evolve_apart ?_ (totals_hermitian hP.1 hP.2 τ (together u v)) hMh).trans (le_of_eq ?_)
    · rw [totals_times hp.drift _ hw, hM, List.map_map]
      have : N.map Prod.fst = τ := by
        have := totals_times ha.drift u hu
        rw [← eA, List.map_map] at this
        exact this
      exact this.symm
    · unfold apartness crosstalk
      congr 1
      have hD : D.length = τ.length := by rw [h.steps, ha.drift]
      refine List.ext_getElem (by simp [lp, lM, hw, hD]) fun i h1 h2 => ?_
      have hi : i < τ.length := by
        simp [lp, lM] at h1
        exact h1
      simp only [List.getElem_zipWith, List.getElem_zip, hM, hN, List.getElem_map, totals, h.drift, h.ctrl]
      rw [hamiltonian_add _ _ _ _ (by simp [h.controls])]
      have := hamiltonian_apart (a.drift[i]'(by rw [ha.drift]; exact hi)) (b.drift[i]'(by rw [hb.drift]; exact hi)) a.ctrl b.ctrl (u[i]'(by omega))
        (v[i]'(by omega)) (hru _ (List.getElem_mem _))
      simp only [together, List.getElem_zipWith]
      rw [this, add_sub_cancel_left]
  have ht : ∀ {i : Type} [Fintype i] [DecidableEq i] (cl : Closest) (T W : Matrix i i ℂ),
      entFid cl none T W mcu = ‖(Tᴴ * W).trace‖ ^ 2 / Fintype.card i / Fintype.card i := by
    intro i _ _ cl T W
    cases mcu <;> rfl
  have hprod : entFid cl none (T₁ ⊗ₖ T₂) (evolve M * p.init) mcu =
      entFid cl₁ none T₁ (evolve (totals a τ u) * a.init) mcu * entFid cl₂ none T₂ (evolve (totals b τ v) * b.init) mcu := by
    rw [eM, h.init, ← Matrix.mul_kronecker_mul, ht, ht, ht, Matrix.conjTranspose_kronecker, ← Matrix.mul_kronecker_mul, Matrix.trace_kronecker,
      norm_mul, Fintype.card_prod]
    push_cast
    ring
  obtain ⟨k1, k2⟩ := infidelity_near_evolve cl mcu hT hiu (evolve_unitary _ (totals_hermitian hP.1 hP.2 τ (together u v))) hMu hdist
  rw [hprod] at k2
  refine ⟨_, _, _, costOn_last cl₁ none T₁ mcu _ _ a1 a2, costOn_last cl₂ none T₂ mcu _ _ b1 b2,
    costOn_last cl none (T₁ ⊗ₖ T₂) mcu _ _ p1 p2, k1, ?_⟩
  rw [sub_sub_cancel, sub_sub_cancel]
  exact k2

/-! ### Cases -/

namespace Ex145
open Ex115 Ex129

/-- Two qubits with an exchange interaction; the drive of the first also rotates the second. -/
noncomputable def D : List (Matrix (Fin 2 × Fin 2) (Fin 2 × Fin 2) ℂ) := [(1 / 100 : ℝ) • Z ⊗ₖ Z, 0]
noncomputable def X : List (Matrix (Fin 2 × Fin 2) (Fin 2 × Fin 2) ℂ) := [(1 / 10 : ℝ) • 1 ⊗ₖ !![0, 1; 1, 0], 0, 0]

noncomputable def both (L : Lapack (Fin 2 × Fin 2)) : SPar (Fin 2 × Fin 2) (Fin 2 × Fin 2) :=
  ⟨L, .frechet, true, true, .none, 1, List.zipWith (fun H E => H + E) [Z ⊗ₖ 1 + 1 ⊗ₖ 0, 0 ⊗ₖ 1 + 1 ⊗ₖ Z] D,
    List.zipWith (fun H E => H + E) [!![0, 1; 1, 0] ⊗ₖ 1, 1 ⊗ₖ !![0, -Complex.I; Complex.I, 0], 1 ⊗ₖ Z] X, idTf, id, idAmp⟩

theorem interacting (L : Lapack (Fin 2 × Fin 2)) (L' : Lapack (Fin 2)) : Interacting (both L) (one L') (two L') D X :=
  ⟨by simp [both, Ex129.one, two], rfl, rfl, rfl, rfl⟩

theorem hZ : Z.IsHermitian := by
  ext i j
  fin_cases i <;> fin_cases j <;> simp [Z]
theorem hX : (!![0, 1; 1, 0] : Matrix (Fin 2) (Fin 2) ℂ).IsHermitian := by
  ext i j
  fin_cases i <;> fin_cases j <;> simp
theorem hY : (!![0, -Complex.I; Complex.I, 0] : Matrix (Fin 2) (Fin 2) ℂ).IsHermitian := by
  ext i j
  fin_cases i <;> fin_cases j <;> simp
theorem hkron {A B : Matrix (Fin 2) (Fin 2) ℂ} (hA : A.IsHermitian) (hB : B.IsHermitian) : (A ⊗ₖ B).IsHermitian := by
  show (_ : Matrix _ _ ℂ)ᴴ = _
  rw [Matrix.conjTranspose_kronecker, hA.eq, hB.eq]
theorem hsmul {A : Matrix (Fin 2 × Fin 2) (Fin 2 × Fin 2) ℂ} (hA : A.IsHermitian) (x : ℝ) : (x • A).IsHermitian := by
  show (_ : Matrix _ _ ℂ)ᴴ = _
  rw [Matrix.conjTranspose_smul, hA.eq]
  simp

theorem herm (L : Lapack (Fin 2 × Fin 2)) : (∀ H ∈ (both L).drift, H.IsHermitian) ∧ ∀ H ∈ (both L).ctrl, H.IsHermitian := by
  have h0 : (0 : Matrix (Fin 2) (Fin 2) ℂ).IsHermitian := Matrix.isHermitian_zero
  have h00 : (0 : Matrix (Fin 2 × Fin 2) (Fin 2 × Fin 2) ℂ).IsHermitian := Matrix.isHermitian_zero
  have h1 : (1 : Matrix (Fin 2) (Fin 2) ℂ).IsHermitian := Matrix.isHermitian_one
  refine ⟨fun H hH => ?_, fun H hH => ?_⟩
  · simp only [both, D, List.zipWith_cons_cons, List.zipWith_nil_left, List.mem_cons, List.not_mem_nil, or_false] at hH
    rcases hH with rfl | rfl
    · exact ((hkron hZ h1).add (hkron h1 h0)).add (hsmul (hkron hZ hZ) _)
    · exact ((hkron h0 h1).add (hkron h1 hZ)).add h00
  · simp only [both, X, List.zipWith_cons_cons, List.zipWith_nil_left, List.mem_cons, List.not_mem_nil, or_false] at hH
    rcases hH with rfl | rfl | rfl
    · exact (hkron hX h1).add (hsmul (hkron h1 hX) _)
    · exact (hkron h1 hY).add h00
    · exact (hkron h1 hZ).add h00

theorem herm_one (L : Lapack (Fin 2)) : (∀ H ∈ (one L).drift, H.IsHermitian) ∧ ∀ H ∈ (one L).ctrl, H.IsHermitian := by
  simp only [Ex129.one, List.mem_cons, List.not_mem_nil, or_false, forall_eq_or_imp, forall_eq]
  exact ⟨⟨hZ, Matrix.isHermitian_zero⟩, hX⟩

theorem herm_two (L : Lapack (Fin 2)) : (∀ H ∈ (two L).drift, H.IsHermitian) ∧ ∀ H ∈ (two L).ctrl, H.IsHermitian := by
  simp only [two, List.mem_cons, List.not_mem_nil, or_false, forall_eq_or_imp, forall_eq]
  exact ⟨⟨Matrix.isHermitian_zero, hZ⟩, hY, hZ⟩

theorem computes_one {L : Lapack (Fin 2)} (hE : L.ExpmOk) : Computes (one L) [1, 2] :=
  ⟨by simp [Ex129.one], rfl, by simp, Or.inl ⟨rfl, rfl⟩, Or.inl ⟨rfl, hE⟩⟩
theorem computes_two {L : Lapack (Fin 2)} (hE : L.ExpmOk) : Computes (two L) [1, 2] :=
  ⟨by simp [two], rfl, by simp, Or.inl ⟨rfl, rfl⟩, Or.inl ⟨rfl, hE⟩⟩
theorem computes_both {L : Lapack (Fin 2 × Fin 2)} (hE : L.ExpmOk) : Computes (both L) [1, 2] :=
  ⟨by simp [both, X], rfl, by simp, Or.inl ⟨rfl, rfl⟩, Or.inl ⟨rfl, hE⟩⟩

example (cl : Closest) : ∃ (L : Lapack (Fin 2 × Fin 2)) (L' : Lapack (Fin 2)) (c₁ c₂ c : ℝ),
    (costOn (opCosts cl none (1 : Matrix (Fin 2) (Fin 2) ℂ) false) (one L').bare.cfg (fresh (one L').bare.cfg [1, 2] [[3], [4]])).1 = .ok c₁ ∧
    (costOn (opCosts cl none (1 : Matrix (Fin 2) (Fin 2) ℂ) false) (two L').bare.cfg
      (fresh (two L').bare.cfg [1, 2] [[5, 6], [7, 8]])).1 = .ok c₂ ∧
    (costOn (opCosts cl none (1 ⊗ₖ 1 : Matrix (Fin 2 × Fin 2) (Fin 2 × Fin 2) ℂ) false) (both L).bare.cfg
      (fresh (both L).bare.cfg [1, 2] [[3, 5, 6], [4, 7, 8]])).1 = .ok c ∧
    0 ≤ c ∧ |√c - √(1 - (1 - c₁) * (1 - c₂))| ≤ crosstalk D X [1, 2] [[3, 5, 6], [4, 7, 8]] := by
  obtain ⟨L, -, -, hE, -⟩ := lapack_exists (Fin 2 × Fin 2)
  obtain ⟨L', -, -, hE', -⟩ := lapack_exists (Fin 2)
  obtain ⟨c₁, c₂, c, h⟩ := c145_crosstalk cl cl cl false _ _ _ D X (interacting L L') (herm_one L') (herm_two L') (herm L) (one_mem _) (one_mem _)
    [1, 2] (computes_both hE) (computes_one hE') (computes_two hE') [[3], [4]] [[5, 6], [7, 8]] rfl rfl (by simp [Ex129.one]) (by simp [two]) 1 1
    (one_mem _) (one_mem _)
  exact ⟨L, L', c₁, c₂, c, h⟩

/-- Different Hamiltonians, different numbers of controls and different pulses for the same qubit. -/
example (cl : Closest) : ∃ (L : Lapack (Fin 2)) (c c' : ℝ),
    (costOn (opCosts cl none (1 : Matrix (Fin 2) (Fin 2) ℂ) false) (one L).bare.cfg (fresh (one L).bare.cfg [1, 2] [[3], [4]])).1 = .ok c ∧
    (costOn (opCosts cl none (1 : Matrix (Fin 2) (Fin 2) ℂ) false) (two L).bare.cfg (fresh (two L).bare.cfg [1, 2] [[5, 6], [7, 8]])).1 = .ok c' ∧
    |√c - √c'| ≤ apartness (totals (one L) [1, 2] [[3], [4]]) (totals (two L) [1, 2] [[5, 6], [7, 8]]) := by
  obtain ⟨L, -, -, hE, -⟩ := lapack_exists (Fin 2)
  exact ⟨L, c145_gates (one L) (two L) rfl (one_mem _) (herm_one L).1 (herm_one L).2 (herm_two L).1 (herm_two L).2 [1, 2] (computes_one hE)
    (computes_two hE) [[3], [4]] [[5, 6], [7, 8]] rfl rfl (by simp [Ex129.one]) (by simp [two]) cl none (by simp) (inferInstanceAs (Nonempty (Fin 2)))
    false (Or.inl rfl) 1 (one_mem _)⟩

/-- The state evolved under both. -/
noncomputable def ket (L : Lapack (Fin 2)) (d c : List (Matrix (Fin 2) (Fin 2) ℂ)) : SPar (Fin 2) (Fin 1) :=
  ⟨L, .frechet, true, true, .none, !![1; 0], d, c, idTf, id, idAmp⟩

example : ∃ (L : Lapack (Fin 2)) (c c' : ℝ),
    (costOn (stateCosts (some [1]) !![1] false) (ket L [Z, 0] [!![0, 1; 1, 0]]).bare.cfg
      (fresh (ket L [Z, 0] [!![0, 1; 1, 0]]).bare.cfg [1, 2] [[3], [4]])).1 = .ok c ∧
    (costOn (stateCosts (some [1]) !![1] false) (ket L [Z, Z] [!![0, 1; 1, 0]]).bare.cfg
      (fresh (ket L [Z, Z] [!![0, 1; 1, 0]]).bare.cfg [1, 2] [[3], [5]])).1 = .ok c' ∧
    |√c - √c'| ≤ apartness (totals (ket L [Z, 0] [!![0, 1; 1, 0]]) [1, 2] [[3], [4]]) (totals (ket L [Z, Z] [!![0, 1; 1, 0]]) [1, 2] [[3], [5]]) := by
  obtain ⟨L, -, -, hE, -⟩ := lapack_exists (Fin 2)
  have h0 : (0 : Matrix (Fin 2) (Fin 2) ℂ).IsHermitian := Matrix.isHermitian_zero
  have hN : ∀ l : List (Fin 2), some [1] = some l → l.Nodup := by
    rintro l h
    cases h
    simp
  have hT : ∑ i, ‖(!![1] : Matrix (Fin 1) (CompIdx (some [(1 : Fin 2)])) ℂ) 0 i‖ ^ 2 = 1 := by
    show ∑ i : Fin 1, _ = _
    simp
  have hp : ∀ d : List (Matrix (Fin 2) (Fin 2) ℂ), d.length = 2 → Computes (ket L d [!![0, 1; 1, 0]]) [1, 2] :=
    fun d hd => ⟨by simp [ket], hd, by simp, Or.inl ⟨rfl, rfl⟩, Or.inl ⟨rfl, hE⟩⟩
  have hd : ∀ H ∈ (ket L [Z, 0] [!![0, 1; 1, 0]]).drift, H.IsHermitian := by simp [ket, hZ]
  have hd' : ∀ H ∈ (ket L [Z, Z] [!![0, 1; 1, 0]]).drift, H.IsHermitian := by simp [ket, hZ]
  have hc : ∀ d, ∀ H ∈ (ket L d [!![0, 1; 1, 0]]).ctrl, H.IsHermitian := fun d => by simpa [ket] using hX
  have hr : ∀ x y : ℝ, ∀ row ∈ ([[x], [y]] : Solver.Pulse), row.length = 1 := by simp
  exact ⟨L, c145_states (ket L [Z, 0] [!![0, 1; 1, 0]]) (ket L [Z, Z] [!![0, 1; 1, 0]]) rfl (by simp [ket]) hd (hc _) hd' (hc _) [1, 2]
    (hp _ rfl) (hp _ rfl) [[3], [4]] [[3], [5]] rfl rfl (hr 3 4) (hr 3 5) (some [1]) hN !![1] hT false false⟩

end Ex145

end Verif.Sim
