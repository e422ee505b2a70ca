import Verif.Sim.Sequence
import Verif.Cost.State

/-!
# C129: subsystems which do not interact

Hamiltonians of two subsystems are combined with `DenseOperator.kron` (matrix.py:961-970), whose entries are those of Mathlib's
Kronecker product (`Arr.entry_kron`).
-/

namespace Verif.Sim
open Verif Verif.Transfer Verif.Operator Verif.Solver Verif.Cost Matrix
open scoped Kronecker

variable {n k m l : Type} [Fintype n] [DecidableEq n] [Fintype k] [DecidableEq k]

/-! ## Specification -/

/-- The solver `p` describes the two subsystems of `a` and `b`, without interaction: Hamiltonians `A ⊗ 1` and `1 ⊗ B`, the controls
of the first subsystem first. -/
structure Apart (p : SPar (n × k) (m × l)) (a : SPar n m) (b : SPar k l) : Prop where
  init : p.init = a.init ⊗ₖ b.init
  drift : p.drift = List.zipWith (fun A B => A ⊗ₖ (1 : Matrix k k ℂ) + (1 : Matrix n n ℂ) ⊗ₖ B) a.drift b.drift
  ctrl : p.ctrl = a.ctrl.map (fun A => A ⊗ₖ (1 : Matrix k k ℂ)) ++ b.ctrl.map fun B => (1 : Matrix n n ℂ) ⊗ₖ B

/-- The controls of both subsystems at the same time. -/
def together (u v : Solver.Pulse) : Solver.Pulse := List.zipWith (fun r s => r ++ s) u v

/-! ## Lemmas -/

/-- `A ↦ A ⊗ 1` and `B ↦ 1 ⊗ B`. -/
def firstHom (n k : Type) [Fintype n] [DecidableEq n] [Fintype k] [DecidableEq k] : Matrix n n ℂ →+* Matrix (n × k) (n × k) ℂ where
  toFun A := A ⊗ₖ (1 : Matrix k k ℂ)
  map_one' := Matrix.one_kronecker_one
  map_mul' A B := by rw [← Matrix.mul_kronecker_mul, Matrix.one_mul]
  map_zero' := Matrix.zero_kronecker _
  map_add' A B := Matrix.add_kronecker _ _ _

def secondHom (n k : Type) [Fintype n] [DecidableEq n] [Fintype k] [DecidableEq k] : Matrix k k ℂ →+* Matrix (n × k) (n × k) ℂ where
  toFun B := (1 : Matrix n n ℂ) ⊗ₖ B
  map_one' := Matrix.one_kronecker_one
  map_mul' A B := by rw [← Matrix.mul_kronecker_mul, Matrix.one_mul]
  map_zero' := Matrix.kronecker_zero _
  map_add' A B := Matrix.kronecker_add _ _ _

open scoped Matrix.Norms.Operator in
theorem exp_first (A : Matrix n n ℂ) : NormedSpace.exp (A ⊗ₖ (1 : Matrix k k ℂ)) = NormedSpace.exp A ⊗ₖ (1 : Matrix k k ℂ) := by
  let : NormedAlgebra ℚ (Matrix n n ℂ) := NormedAlgebra.restrictScalars ℚ ℂ _
  let : NormedAlgebra ℚ (Matrix (n × k) (n × k) ℂ) := NormedAlgebra.restrictScalars ℚ ℂ _
  refine (NormedSpace.map_exp (firstHom n k) ?_ A).symm
  refine continuous_matrix fun i j => ?_
  show Continuous fun A : Matrix n n ℂ => A i.1 j.1 * (1 : Matrix k k ℂ) i.2 j.2
  exact (continuous_id.matrix_elem i.1 j.1).mul continuous_const

open scoped Matrix.Norms.Operator in
theorem exp_second (B : Matrix k k ℂ) : NormedSpace.exp ((1 : Matrix n n ℂ) ⊗ₖ B) = (1 : Matrix n n ℂ) ⊗ₖ NormedSpace.exp B := by
  let : NormedAlgebra ℚ (Matrix k k ℂ) := NormedAlgebra.restrictScalars ℚ ℂ _
  let : NormedAlgebra ℚ (Matrix (n × k) (n × k) ℂ) := NormedAlgebra.restrictScalars ℚ ℂ _
  refine (NormedSpace.map_exp (secondHom n k) ?_ B).symm
  refine continuous_matrix fun i j => ?_
  show Continuous fun B : Matrix k k ℂ => (1 : Matrix n n ℂ) i.1 j.1 * B i.2 j.2
  exact continuous_const.mul (continuous_id.matrix_elem i.2 j.2)

theorem exp_apart (A : Matrix n n ℂ) (B : Matrix k k ℂ) :
    NormedSpace.exp (A ⊗ₖ (1 : Matrix k k ℂ) + (1 : Matrix n n ℂ) ⊗ₖ B) = NormedSpace.exp A ⊗ₖ NormedSpace.exp B := by
  have hc : Commute (A ⊗ₖ (1 : Matrix k k ℂ)) ((1 : Matrix n n ℂ) ⊗ₖ B) := by
    show _ * _ = _ * _
    rw [← Matrix.mul_kronecker_mul, ← Matrix.mul_kronecker_mul]
    simp
  rw [Matrix.exp_add_of_commute _ _ hc, exp_first, exp_second, ← Matrix.mul_kronecker_mul, Matrix.one_mul, Matrix.mul_one]

omit [Fintype n] [Fintype k] in
theorem hamiltonian_apart (A : Matrix n n ℂ) (B : Matrix k k ℂ) (cA : List (Matrix n n ℂ)) (cB : List (Matrix k k ℂ)) (r s : List ℝ)
    (hr : r.length = cA.length) :
    hamiltonian (A ⊗ₖ (1 : Matrix k k ℂ) + (1 : Matrix n n ℂ) ⊗ₖ B)
      (cA.map (fun A => A ⊗ₖ (1 : Matrix k k ℂ)) ++ cB.map fun B => (1 : Matrix n n ℂ) ⊗ₖ B) (r ++ s) =
      hamiltonian A cA r ⊗ₖ (1 : Matrix k k ℂ) + (1 : Matrix n n ℂ) ⊗ₖ hamiltonian B cB s := by
  have h1 : ∀ (r : List ℝ) (c : List (Matrix n n ℂ)), (List.zipWith (fun (a : ℝ) H => (a : ℂ) • H) r
      (c.map fun A => A ⊗ₖ (1 : Matrix k k ℂ))).sum = (List.zipWith (fun (a : ℝ) H => (a : ℂ) • H) r c).sum ⊗ₖ (1 : Matrix k k ℂ) := by
    intro r c
    induction r generalizing c with
    | nil => simp
    | cons a r ih =>
      cases c with
      | nil => simp
      | cons C c =>
        simp only [List.map_cons, List.zipWith_cons_cons, List.sum_cons, ih, Matrix.add_kronecker, Matrix.smul_kronecker]
  have h2 : ∀ (r : List ℝ) (c : List (Matrix k k ℂ)), (List.zipWith (fun (a : ℝ) H => (a : ℂ) • H) r
      (c.map fun B => (1 : Matrix n n ℂ) ⊗ₖ B)).sum = (1 : Matrix n n ℂ) ⊗ₖ (List.zipWith (fun (a : ℝ) H => (a : ℂ) • H) r c).sum := by
    intro r c
    induction r generalizing c with
    | nil => simp
    | cons a r ih =>
      cases c with
      | nil => simp
      | cons C c =>
        simp only [List.map_cons, List.zipWith_cons_cons, List.sum_cons, ih, Matrix.kronecker_add, Matrix.kronecker_smul]
  unfold hamiltonian
  rw [List.zipWith_append (by simpa using hr), List.sum_append, h1, h2, Matrix.add_kronecker, Matrix.kronecker_add]
  abel

omit [DecidableEq n] [DecidableEq k] in
theorem forward_apart {iA : Matrix n m ℂ} {iB : Matrix k l ℂ} {pA fA} {pB fB} (hA : IsForward iA pA fA) (hB : IsForward iB pB fB)
    (hl : pA.length = pB.length) :
    IsForward (iA ⊗ₖ iB) (List.zipWith (fun A B => A ⊗ₖ B) pA pB) (List.zipWith (fun A B => A ⊗ₖ B) fA fB) := by
  refine ⟨by simp [hA.1, hB.1, hl], by simp [List.getElem?_zipWith, hA.2.1, hB.2.1], fun i hi => ?_⟩
  simp only [List.length_zipWith, lt_inf_iff] at hi
  obtain ⟨F, a1, a2⟩ := hA.2.2 i hi.1
  obtain ⟨G, b1, b2⟩ := hB.2.2 i hi.2
  refine ⟨F ⊗ₖ G, by simp [List.getElem?_zipWith, a1, b1], ?_⟩
  simp [List.getElem?_zipWith, a2, b2, Matrix.mul_kronecker_mul]

theorem steps_apart {p : SPar (n × k) (m × l)} {a : SPar n m} {b : SPar k l} (h : Apart p a b) {τ : List ℝ} (hp : Computes p τ)
    (ha : Computes a τ) (hb : Computes b τ) (u v : Solver.Pulse) (hu : u.length = τ.length) (hv : v.length = τ.length)
    (hru : ∀ r ∈ u, r.length = a.ctrl.length) :
    p.bare.steps τ (together u v) = List.zipWith (fun A B => A ⊗ₖ B) (a.bare.steps τ u) (b.bare.steps τ v) := by
  rw [hp.steps_eq _ (by simp [together, hu, hv]), ha.steps_eq u hu, hb.steps_eq v hv]
  have e1 := ha.drift
  have e2 := hb.drift
  refine List.ext_getElem (by simp [together, h.drift, hu, hv, e1, e2]) fun i h1 h2 => ?_
  have hi : i < τ.length := by
    simp at h1
    omega
  simp only [List.getElem_zipWith, List.getElem_zip, together, h.drift, h.ctrl]
  rw [hamiltonian_apart _ _ _ _ _ _ (hru _ (List.getElem_mem _)), smul_add, smul_add, ← Matrix.smul_kronecker, ← Matrix.smul_kronecker,
    ← Matrix.kronecker_smul, ← Matrix.kronecker_smul, exp_apart]

theorem zipWith_getLast {α β γ : Type} (g : α → β → γ) {x : List α} {y : List β} (h : x.length = y.length) {a : α} {b : β}
    (ha : x.getLast? = some a) (hb : y.getLast? = some b) : (List.zipWith g x y).getLast? = some (g a b) := by
  rw [List.getLast?_eq_getElem?] at *
  rw [List.getElem?_zipWith, List.length_zipWith, h, min_self]
  rw [h] at ha
  rw [ha, hb]

/-! ## The property -/

/-- **C129** The evolution of two subsystems that do not interact is the Kronecker product of their evolutions at all times. -/
theorem c129_forward (p : SPar (n × k) (m × l)) (a : SPar n m) (b : SPar k l) (h : Apart p a b) (τ : List ℝ) (hp : Computes p τ)
    (ha : Computes a τ) (hb : Computes b τ) (u v : Solver.Pulse) (hu : u.length = τ.length) (hv : v.length = τ.length)
    (hru : ∀ r ∈ u, r.length = a.ctrl.length) (hrv : ∀ r ∈ v, r.length = b.ctrl.length) :
    ∃ fa fb, (readFwd a.bare.cfg (fresh a.bare.cfg τ u)).1 = .ok fa ∧ (readFwd b.bare.cfg (fresh b.bare.cfg τ v)).1 = .ok fb ∧
      fa.length = τ.length + 1 ∧ fb.length = τ.length + 1 ∧
      (readFwd p.bare.cfg (fresh p.bare.cfg τ (together u v))).1 = .ok (List.zipWith (fun A B => A ⊗ₖ B) fa fb) := by
  obtain ⟨fa, a1, a2⟩ := ha.fwd u hu hru
  obtain ⟨fb, b1, b2⟩ := hb.fwd v hv hrv
  obtain ⟨f, c1, c2⟩ := hp.fwd (together u v) (by simp [together, hu, hv]) (by
    intro row hrow
    obtain ⟨i, hi, rfl⟩ := List.getElem_of_mem hrow
    simp only [together, List.getElem_zipWith, List.length_append, h.ctrl, List.length_map]
    rw [hru _ (List.getElem_mem _), hrv _ (List.getElem_mem _)])
  have e1 : (a.bare.steps τ u).length = τ.length := steps_length _ _ _
  have e2 : (b.bare.steps τ v).length = τ.length := steps_length _ _ _
  rw [steps_apart h hp ha hb u v hu hv hru, h.init] at c2
  refine ⟨fa, fb, a1, b1, by rw [a2.1, e1], by rw [b2.1, e2], ?_⟩
  rw [c1, forward_unique c2 (forward_apart a2 b2 (by rw [e1, e2]))]

/-- **C129** The fidelities of gates on subsystems that do not interact multiply: `OperationInfidelity` of the pair of gates is
`1 - (1 - I₁) (1 - I₂)`. -/
theorem c129_gates (cl : Closest) (cl₁ : Closest) (cl₂ : Closest) (mcu : Bool) (p : SPar (n × k) (n × k))
    (a : SPar n n) (b : SPar k k) (h : Apart p a b) (τ : List ℝ) (hp : Computes p τ)
    (ha : Computes a τ) (hb : Computes b τ) (u v : Solver.Pulse) (hu : u.length = τ.length) (hv : v.length = τ.length)
    (hru : ∀ r ∈ u, r.length = a.ctrl.length) (hrv : ∀ r ∈ v, r.length = b.ctrl.length) (T₁ : Matrix n n ℂ) (T₂ : Matrix k k ℂ) :
    ∃ c₁ c₂ c : ℝ, (costOn (opCosts cl₁ none T₁ mcu) a.bare.cfg (fresh a.bare.cfg τ u)).1 = .ok c₁ ∧
      (costOn (opCosts cl₂ none T₂ mcu) b.bare.cfg (fresh b.bare.cfg τ v)).1 = .ok c₂ ∧
      (costOn (opCosts cl none (T₁ ⊗ₖ T₂) mcu) p.bare.cfg (fresh p.bare.cfg τ (together u v))).1 = .ok c ∧
      1 - c = (1 - c₁) * (1 - c₂) := by
  obtain ⟨fa, fb, e1, e2, e3, e4, e5⟩ := c129_forward p a b h τ hp ha hb u v hu hv hru hrv
  obtain ⟨U, hU⟩ : ∃ U, fa.getLast? = some U := by
    rw [List.getLast?_eq_getElem?]
    exact ⟨_, List.getElem?_eq_getElem (by omega)⟩
  obtain ⟨V, hV⟩ : ∃ V, fb.getLast? = some V := by
    rw [List.getLast?_eq_getElem?]
    exact ⟨_, List.getElem?_eq_getElem (by omega)⟩
  refine ⟨_, _, _, costOn_last cl₁ none T₁ mcu _ _ e1 hU, costOn_last cl₂ none T₂ mcu _ _ e2 hV,
    costOn_last cl none (T₁ ⊗ₖ T₂) mcu _ _ e5 (zipWith_getLast _ (by omega) hU hV), ?_⟩
  have ht : ∀ {i : Type} [Fintype i] [DecidableEq i] (cl : Closest) (T W : Matrix i i ℂ),
      entFid cl none T W mcu = ‖(Tᴴ * W).trace‖ ^ 2 / Fintype.card i / Fintype.card i := by
    intro i _ _ cl T W
    cases mcu <;> rfl
  rw [ht, ht, ht, Matrix.conjTranspose_kronecker, ← Matrix.mul_kronecker_mul, Matrix.trace_kronecker, norm_mul, Fintype.card_prod]
  push_cast
  ring

/-- The gradient of `OperationInfidelity` on the whole space, entry by entry. -/
theorem gate_gradient {i : Type} [Fintype i] [DecidableEq i] {q : SPar i i} {τ : List ℝ} (hq : Computes q τ) (hm : q.method = .frechet)
    (ha : q.approx = .none) (hF : q.L.FrechetOk) (cl : Closest) (mcu : Bool) (T : Matrix i i ℂ) (w : Solver.Pulse)
    (hw : w.length = τ.length) (hr : ∀ r ∈ w, r.length = q.ctrl.length) :
    ∃ g, (gradOn (fun tr => opGrad cl none T mcu tr.fwd tr.dP tr.rev) q.bare.cfg (fresh q.bare.cfg τ w)).1 = .ok g ∧
      Rect g τ.length q.ctrl.length ∧ ∀ t c, t < τ.length → c < q.ctrl.length →
        ∃ (G : ℝ) (cost : ℝ → ℝ), entry g t c = some G ∧
          (∀ x, (costOn (opCosts cl none T mcu) q.bare.cfg (fresh q.bare.cfg τ (bump w t c x))).1 = .ok (cost x)) ∧
          HasDerivAt cost G 0 := by
  have hE : q.L.ExpmOk := by
    rcases hq.method with h | h
    · exact h.2
    · rw [hm] at h
      simp at h
  have hamps : ∀ w : Solver.Pulse, w.length = τ.length → (∀ r ∈ w, r.length = q.ctrl.length) → ampsOf q.bare.cfg τ w = some w := by
    intro w hw hr
    have hne : w ≠ [] := by
      intro h0
      rw [h0] at hw
      exact hq.steps (List.length_eq_zero_iff.mp hw.symm)
    obtain ⟨r, e1, e2, e3, e4⟩ := idAmp_ok w q.ctrl.length hne hr
    have := ampsOf_some q.bare.cfg τ w w r rfl e1 e2 (by rw [e4]; exact hw) e3
    rw [this, e4]
  obtain ⟨g, h1, h2, h3⟩ := c44_schroedinger q.bare τ ⟨hq.ctrl, hq.drift, by
    show q.method ≠ .other
    rw [hm]; simp⟩ hq.stable hm ha hE hF hq.steps cl none (by simp) mcu (Or.inr rfl) T w w (hamps w hw hr)
  refine ⟨g, h1, h2, fun t c ht hc => h3 t c ht hc (bump w t c) fun x => hamps _ (by simp [bump, hw]) ?_⟩
  intro row hrow
  unfold bump at hrow
  obtain ⟨j, hj, rfl⟩ := List.getElem_of_mem hrow
  rw [List.getElem_modify]
  split
  · rw [List.length_modify]
    exact hr _ (List.getElem_mem _)
  · exact hr _ (List.getElem_mem _)

theorem modify_append_first (r s : List ℝ) (c : Nat) (f : ℝ → ℝ) (h : c < r.length) : (r ++ s).modify c f = r.modify c f ++ s := by
  induction r generalizing c with
  | nil => simp at h
  | cons a r ih =>
    cases c with
    | zero => rfl
    | succ c => simp [ih c (by simpa using h)]

theorem modify_append_second (r s : List ℝ) (N c : Nat) (f : ℝ → ℝ) (h : r.length = N) :
    (r ++ s).modify (N + c) f = r ++ s.modify c f := by
  subst h
  induction r with
  | nil => simp
  | cons a r ih => simp [Nat.succ_add, ih]

theorem bump_together_first (u v : Solver.Pulse) (t c : Nat) (x : ℝ) (hc : ∀ r ∈ u, c < r.length) :
    bump (together u v) t c x = together (bump u t c x) v := by
  unfold bump together
  refine List.ext_getElem (by simp) fun i h1 h2 => ?_
  simp only [List.getElem_modify, List.getElem_zipWith]
  split
  · exact modify_append_first _ _ _ _ (hc _ (List.getElem_mem _))
  · rfl

theorem bump_together_second (u v : Solver.Pulse) (t N c : Nat) (x : ℝ) (hN : ∀ r ∈ u, r.length = N) :
    bump (together u v) t (N + c) x = together u (bump v t c x) := by
  unfold bump together
  refine List.ext_getElem (by simp) fun i h1 h2 => ?_
  simp only [List.getElem_modify, List.getElem_zipWith]
  split
  · exact modify_append_second _ _ _ _ _ (hN _ (List.getElem_mem _))
  · rfl

/-- **C129** The gradient with respect to the controls of one subsystem is the gradient of this subsystem alone, times the fidelity
of the other one. -/
theorem c129_gradient (cl : Closest) (cl₁ : Closest) (cl₂ : Closest) (mcu : Bool) (p : SPar (n × k) (n × k))
    (a : SPar n n) (b : SPar k k) (h : Apart p a b) (τ : List ℝ) (hp : Computes p τ) (ha : Computes a τ) (hb : Computes b τ)
    (hmp : p.method = .frechet ∧ p.approx = .none ∧ p.L.FrechetOk) (hma : a.method = .frechet ∧ a.approx = .none ∧ a.L.FrechetOk)
    (hmb : b.method = .frechet ∧ b.approx = .none ∧ b.L.FrechetOk) (u v : Solver.Pulse) (hu : u.length = τ.length)
    (hv : v.length = τ.length) (hru : ∀ r ∈ u, r.length = a.ctrl.length) (hrv : ∀ r ∈ v, r.length = b.ctrl.length)
    (T₁ : Matrix n n ℂ) (T₂ : Matrix k k ℂ) :
    ∃ (c₁ c₂ : ℝ) (g₁ g₂ g : List (List ℝ)),
      (costOn (opCosts cl₁ none T₁ mcu) a.bare.cfg (fresh a.bare.cfg τ u)).1 = .ok c₁ ∧
      (costOn (opCosts cl₂ none T₂ mcu) b.bare.cfg (fresh b.bare.cfg τ v)).1 = .ok c₂ ∧
      (gradOn (fun tr => opGrad cl₁ none T₁ mcu tr.fwd tr.dP tr.rev) a.bare.cfg (fresh a.bare.cfg τ u)).1 = .ok g₁ ∧
      (gradOn (fun tr => opGrad cl₂ none T₂ mcu tr.fwd tr.dP tr.rev) b.bare.cfg (fresh b.bare.cfg τ v)).1 = .ok g₂ ∧
      (gradOn (fun tr => opGrad cl none (T₁ ⊗ₖ T₂) mcu tr.fwd tr.dP tr.rev) p.bare.cfg (fresh p.bare.cfg τ (together u v))).1 = .ok g ∧
      g.length = τ.length ∧ (∀ row ∈ g, row.length = a.ctrl.length + b.ctrl.length) ∧
      (∀ t c, t < τ.length → c < a.ctrl.length → ∃ x, entry g₁ t c = some x ∧ entry g t c = some ((1 - c₂) * x)) ∧
      ∀ t c, t < τ.length → c < b.ctrl.length → ∃ x, entry g₂ t c = some x ∧ entry g t (a.ctrl.length + c) = some ((1 - c₁) * x) := by
  obtain ⟨c₁, c₂, c, k1, k2, -, -⟩ := c129_gates cl cl₁ cl₂ mcu p a b h τ hp ha hb u v hu hv hru hrv T₁ T₂
  have hctrl : p.ctrl.length = a.ctrl.length + b.ctrl.length := by simp [h.ctrl]
  have hrow : ∀ r ∈ together u v, r.length = p.ctrl.length := by
    intro row hrow
    obtain ⟨i, hi, rfl⟩ := List.getElem_of_mem hrow
    simp only [together, List.getElem_zipWith, List.length_append, hctrl]
    rw [hru _ (List.getElem_mem _), hrv _ (List.getElem_mem _)]
  obtain ⟨g₁, a1, -, a3⟩ := gate_gradient ha hma.1 hma.2.1 hma.2.2 cl₁ mcu T₁ u hu hru
  obtain ⟨g₂, b1, -, b3⟩ := gate_gradient hb hmb.1 hmb.2.1 hmb.2.2 cl₂ mcu T₂ v hv hrv
  obtain ⟨g, p1, p2, p3⟩ := gate_gradient hp hmp.1 hmp.2.1 hmp.2.2 cl mcu (T₁ ⊗ₖ T₂) (together u v) (by simp [together, hu, hv]) hrow
  have hb' : ∀ (w : Solver.Pulse) (N t c : Nat) (x : ℝ), (∀ r ∈ w, r.length = N) → ∀ r ∈ bump w t c x, r.length = N := by
    intro w N t c x hw r hr
    unfold bump at hr
    obtain ⟨j, hj, rfl⟩ := List.getElem_of_mem hr
    rw [List.getElem_modify]
    split
    · rw [List.length_modify]
      exact hw _ (List.getElem_mem _)
    · exact hw _ (List.getElem_mem _)
  refine ⟨c₁, c₂, g₁, g₂, g, k1, k2, a1, b1, p1, p2.1, fun row hr => (p2.2 row hr).trans hctrl, fun t c ht hc => ?_, fun t c ht hc => ?_⟩
  · obtain ⟨x, f₁, x1, x2, x3⟩ := a3 t c ht hc
    obtain ⟨y, f, y1, y2, y3⟩ := p3 t c ht (by omega)
    refine ⟨x, x1, ?_⟩
    have hf : f = fun s => 1 - (1 - f₁ s) * (1 - c₂) := by
      funext s
      obtain ⟨d₁, d₂, d, l1, l2, l3, l4⟩ := c129_gates cl cl₁ cl₂ mcu p a b h τ hp ha hb (bump u t c s) v (by simp [bump, hu]) hv
        (hb' u _ t c s hru) hrv T₁ T₂
      rw [x2 s] at l1
      rw [k2] at l2
      rw [← bump_together_first u v t c s fun r hr => by rw [hru r hr]; exact hc, y2 s] at l3
      cases l1; cases l2; cases l3
      linarith
    have hd : HasDerivAt f ((1 - c₂) * x) 0 := by
      rw [hf]
      refine (((x3.const_sub 1).mul_const (1 - c₂)).const_sub 1).congr_deriv ?_
      ring
    rw [y1, y3.unique hd]
  · obtain ⟨x, f₂, x1, x2, x3⟩ := b3 t c ht hc
    obtain ⟨y, f, y1, y2, y3⟩ := p3 t (a.ctrl.length + c) ht (by omega)
    refine ⟨x, x1, ?_⟩
    have hf : f = fun s => 1 - (1 - c₁) * (1 - f₂ s) := by
      funext s
      obtain ⟨d₁, d₂, d, l1, l2, l3, l4⟩ := c129_gates cl cl₁ cl₂ mcu p a b h τ hp ha hb u (bump v t c s) hu (by simp [bump, hv])
        hru (hb' v _ t c s hrv) T₁ T₂
      rw [x2 s] at l2
      rw [k1] at l1
      rw [← bump_together_second u v t _ c s hru, y2 s] at l3
      cases l1; cases l2; cases l3
      linarith
    have hd : HasDerivAt f ((1 - c₁) * x) 0 := by
      rw [hf]
      refine (((x3.const_sub 1).const_mul (1 - c₁)).const_sub 1).congr_deriv ?_
      ring
    rw [y1, y3.unique hd]

namespace Ex129
open Ex115

/-- Two qubits with their own drifts and drives, and both together. -/
noncomputable def one (L : Lapack (Fin 2)) : SPar (Fin 2) (Fin 2) :=
  ⟨L, .frechet, true, true, .none, 1, [Z, 0], [!![0, 1; 1, 0]], idTf, id, idAmp⟩
noncomputable def two (L : Lapack (Fin 2)) : SPar (Fin 2) (Fin 2) :=
  ⟨L, .frechet, true, true, .none, 1, [0, Z], [!![0, -Complex.I; Complex.I, 0], Z], idTf, id, idAmp⟩
noncomputable def both (L : Lapack (Fin 2 × Fin 2)) : SPar (Fin 2 × Fin 2) (Fin 2 × Fin 2) :=
  ⟨L, .frechet, true, true, .none, 1, [Z ⊗ₖ 1 + 1 ⊗ₖ 0, 0 ⊗ₖ 1 + 1 ⊗ₖ Z],
    [!![0, 1; 1, 0] ⊗ₖ 1, 1 ⊗ₖ !![0, -Complex.I; Complex.I, 0], 1 ⊗ₖ Z], idTf, id, idAmp⟩

theorem apart (L : Lapack (Fin 2 × Fin 2)) (L' : Lapack (Fin 2)) : Apart (both L) (one L') (two L') :=
  ⟨by simp [both, one, two], rfl, rfl⟩

example (cl : Closest) : ∃ (L : Lapack (Fin 2 × Fin 2)) (L' : Lapack (Fin 2)) (c₁ c₂ c : ℝ) (g₁ g : List (List ℝ)),
    (costOn (opCosts cl none (Z : Matrix (Fin 2) (Fin 2) ℂ) false) (one L').bare.cfg (fresh (one L').bare.cfg [1, 2] [[3], [4]])).1 = .ok c₁ ∧
    (costOn (opCosts cl none (1 : Matrix (Fin 2) (Fin 2) ℂ) false) (two L').bare.cfg
      (fresh (two L').bare.cfg [1, 2] [[5, 6], [7, 8]])).1 = .ok c₂ ∧
    (costOn (opCosts cl none (Z ⊗ₖ 1 : Matrix (Fin 2 × Fin 2) (Fin 2 × Fin 2) ℂ) false) (both L).bare.cfg
      (fresh (both L).bare.cfg [1, 2] [[3, 5, 6], [4, 7, 8]])).1 = .ok c ∧ 1 - c = (1 - c₁) * (1 - c₂) ∧
    (gradOn (fun tr => opGrad cl none (Z : Matrix (Fin 2) (Fin 2) ℂ) false tr.fwd tr.dP tr.rev) (one L').bare.cfg
      (fresh (one L').bare.cfg [1, 2] [[3], [4]])).1 = .ok g₁ ∧
    (gradOn (fun tr => opGrad cl none (Z ⊗ₖ 1 : Matrix (Fin 2 × Fin 2) (Fin 2 × Fin 2) ℂ) false tr.fwd tr.dP tr.rev) (both L).bare.cfg
      (fresh (both L).bare.cfg [1, 2] [[3, 5, 6], [4, 7, 8]])).1 = .ok g ∧
    ∃ x, entry g₁ 1 0 = some x ∧ entry g 1 0 = some ((1 - c₂) * x) := by
  obtain ⟨L, -, -, hE, hF⟩ := lapack_exists (Fin 2 × Fin 2)
  obtain ⟨L', -, -, hE', hF'⟩ := lapack_exists (Fin 2)
  have hb : Computes (both L) [1, 2] := ⟨by simp [both], rfl, by simp, Or.inl ⟨rfl, rfl⟩, Or.inl ⟨rfl, hE⟩⟩
  have h1 : Computes (one L') [1, 2] := ⟨by simp [one], rfl, by simp, Or.inl ⟨rfl, rfl⟩, Or.inl ⟨rfl, hE'⟩⟩
  have h2 : Computes (two L') [1, 2] := ⟨by simp [two], rfl, by simp, Or.inl ⟨rfl, rfl⟩, Or.inl ⟨rfl, hE'⟩⟩
  obtain ⟨c₁, c₂, c, e1, e2, e3, e4⟩ := c129_gates cl cl cl false _ _ _ (apart L L') [1, 2] hb h1 h2 [[3], [4]] [[5, 6], [7, 8]] rfl rfl
    (by simp [one]) (by simp [two]) Z 1
  obtain ⟨d₁, d₂, g₁, g₂, g, k1, k2, k3, -, k5, -, -, k8, -⟩ := c129_gradient cl cl cl false _ _ _ (apart L L') [1, 2] hb h1 h2
    ⟨rfl, rfl, hF⟩ ⟨rfl, rfl, hF'⟩ ⟨rfl, rfl, hF'⟩ [[3], [4]] [[5, 6], [7, 8]] rfl rfl (by simp [one]) (by simp [two]) Z 1
  rw [e2] at k2
  cases k2
  exact ⟨L, L', c₁, c₂, c, g₁, g, e1, e2, e3, e4, k3, k5, k8 1 0 (by simp) (by simp [one])⟩

end Ex129

end Verif.Sim
