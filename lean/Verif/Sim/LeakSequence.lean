import Verif.Sim.NoiseSequence
import Verif.Cost.Leakage

/-!
# C155: leakage of sequences of gates

`LeakageError` (cost_functions.py:1629-1691) and `IncoherentLeakageError` (cost_functions.py:1694-1747) for pulses played one after the
other.
-/

namespace Verif.Sim
open Verif Verif.Transfer Verif.Operator Verif.Solver Verif.Cost Matrix

variable {n : Type} [Fintype n] [DecidableEq n]

/-! ## Specification -/

/-- What `LeakageError.costs()` returns for the gate. The target has no influence. -/
noncomputable def Gate.leakage {l : List n} (p : SPar n n) (g : Gate n (some l)) : Except PyErr ℝ :=
  (costOn (leakCosts l) { p with drift := g.drift }.bare.cfg (fresh { p with drift := g.drift }.bare.cfg g.times g.amps)).1

/-- What `IncoherentLeakageError.costs()` returns for the gate. -/
noncomputable def NoisyGate.leakage {l : List n} (p : SPar n n) (hN : List (Matrix n n ℂ)) (procs : Procs) (K : Nat)
    (g : NoisyGate n (some l)) : Except PyErr ℝ := do
  let f ← fwdNoise (g.solver p hN procs K) g.times g.amps [] g.amps
  incoherentLeakCosts l f

/-! ## Lemmas -/

omit [DecidableEq n] in
theorem norm_vec_sq {k : Type} [Fintype k] (X : Matrix n k ℂ) : ‖vec X‖ ^ 2 = (Xᴴ * X).trace.re := by
  have := inner_self_eq_norm_sq (𝕜 := ℂ) (vec X)
  rw [vec_inner] at this
  exact this.symm

section
variable {k : Type} [Fintype k] [DecidableEq k]

/-- The part outside of the subspace with the embedding `E`. -/
noncomputable def outside (E : Matrix n k ℂ) (U : Matrix n n ℂ) : Matrix n k ℂ := (1 - E * Eᴴ) * (U * E)

variable {E : Matrix n k ℂ} (hE : Eᴴ * E = 1)
include hE

/-- Pythagoras: inside and outside. -/
theorem outside_norm {m : Type} [Fintype m] (Y : Matrix n m ℂ) : ‖vec ((1 - E * Eᴴ) * Y)‖ ^ 2 = ‖vec Y‖ ^ 2 - ‖vec (Eᴴ * Y)‖ ^ 2 := by
  have hP : E * Eᴴ * (E * Eᴴ) = E * Eᴴ := by rw [Matrix.mul_assoc, ← Matrix.mul_assoc Eᴴ, hE, Matrix.one_mul]
  have hQ : (1 - E * Eᴴ)ᴴ * (1 - E * Eᴴ) = 1 - E * Eᴴ := by
    rw [Matrix.conjTranspose_sub, Matrix.conjTranspose_one, Matrix.conjTranspose_mul, Matrix.conjTranspose_conjTranspose, Matrix.mul_sub,
      Matrix.mul_one, Matrix.sub_mul, Matrix.one_mul, hP, sub_self, sub_zero]
  rw [norm_vec_sq, norm_vec_sq, norm_vec_sq, ← Complex.sub_re, ← Matrix.trace_sub]
  congr 2
  calc ((1 - E * Eᴴ) * Y)ᴴ * ((1 - E * Eᴴ) * Y) = Yᴴ * ((1 - E * Eᴴ)ᴴ * (1 - E * Eᴴ)) * Y := by
        rw [Matrix.conjTranspose_mul]; simp only [Matrix.mul_assoc]
    _ = Yᴴ * Y - (Eᴴ * Y)ᴴ * (Eᴴ * Y) := by
        rw [hQ, Matrix.mul_sub, Matrix.sub_mul, Matrix.mul_one, Matrix.conjTranspose_mul, Matrix.conjTranspose_conjTranspose]
        simp only [Matrix.mul_assoc]

theorem inside_le {m : Type} [Fintype m] (Y : Matrix n m ℂ) : ‖vec (Eᴴ * Y)‖ ≤ ‖vec Y‖ := by
  have h := outside_norm hE Y
  exact (sq_le_sq₀ (norm_nonneg _) (norm_nonneg _)).mp (by nlinarith [sq_nonneg ‖vec ((1 - E * Eᴴ) * Y)‖])

theorem outside_le {m : Type} [Fintype m] (Y : Matrix n m ℂ) : ‖vec ((1 - E * Eᴴ) * Y)‖ ≤ ‖vec Y‖ := by
  have h := outside_norm hE Y
  exact (sq_le_sq₀ (norm_nonneg _) (norm_nonneg _)).mp (by nlinarith [sq_nonneg ‖vec (Eᴴ * Y)‖])

omit hE in
theorem norm_unitary {m : Type} [Fintype m] {U : Matrix n n ℂ} (hU : U ∈ Matrix.unitaryGroup n ℂ) (Y : Matrix n m ℂ) :
    ‖vec (U * Y)‖ = ‖vec Y‖ := by
  have h1 : Uᴴ * U = 1 := Matrix.mem_unitaryGroup_iff'.mp hU
  have : ‖vec (U * Y)‖ ^ 2 = ‖vec Y‖ ^ 2 := by
    rw [norm_vec_sq, norm_vec_sq, Matrix.conjTranspose_mul, Matrix.mul_assoc, ← Matrix.mul_assoc Uᴴ, h1, Matrix.one_mul]
  exact (sq_eq_sq₀ (norm_nonneg _) (norm_nonneg _)).mp this

omit hE [DecidableEq n] [DecidableEq k] in
theorem norm_adjoint (X : Matrix n k ℂ) : ‖vec Xᴴ‖ = ‖vec X‖ := by
  have : ‖vec Xᴴ‖ ^ 2 = ‖vec X‖ ^ 2 := by
    rw [norm_vec_sq, norm_vec_sq, Matrix.conjTranspose_conjTranspose, Matrix.trace_mul_comm]
  exact (sq_eq_sq₀ (norm_nonneg _) (norm_nonneg _)).mp this

/-- What is outside after two operations left in the second, or in the first. -/
theorem outside_mul {U V : Matrix n n ℂ} (hU : U ∈ Matrix.unitaryGroup n ℂ) (hV : V ∈ Matrix.unitaryGroup n ℂ) :
    ‖vec (outside E (V * U))‖ ≤ ‖vec (outside E U)‖ + ‖vec (outside E V)‖ := by
  have hsplit : outside E (V * U) = (1 - E * Eᴴ) * (V * outside E U) + outside E V * (Eᴴ * (U * E)) := by
    unfold outside
    have : V * U * E = V * ((1 - E * Eᴴ) * (U * E)) + V * E * (Eᴴ * (U * E)) := by
      rw [Matrix.sub_mul, Matrix.one_mul, Matrix.mul_sub]
      simp only [Matrix.mul_assoc]
      abel
    rw [this, Matrix.mul_add]
    simp only [Matrix.mul_assoc]
  have hadd : vec (outside E (V * U)) = vec ((1 - E * Eᴴ) * (V * outside E U)) + vec (outside E V * (Eᴴ * (U * E))) := by
    rw [hsplit]; rfl
  rw [hadd]
  refine (norm_add_le _ _).trans (add_le_add ?_ ?_)
  · exact (outside_le hE _).trans (norm_unitary hV _).le
  · rw [← norm_adjoint, ← norm_adjoint (outside E V)]
    have : (outside E V * (Eᴴ * (U * E)))ᴴ = Eᴴ * (Uᴴ * (E * (outside E V)ᴴ)) := by
      simp only [Matrix.conjTranspose_mul, Matrix.conjTranspose_conjTranspose, Matrix.mul_assoc]
    rw [this]
    refine (inside_le hE _).trans ((norm_unitary (Unitary.star_mem hU) _).le.trans ?_)
    have h2 : ‖vec (E * (outside E V)ᴴ)‖ ^ 2 = ‖vec (outside E V)ᴴ‖ ^ 2 := by
      rw [norm_vec_sq, norm_vec_sq, Matrix.conjTranspose_mul, Matrix.mul_assoc, ← Matrix.mul_assoc Eᴴ, hE, Matrix.one_mul]
    exact ((sq_eq_sq₀ (norm_nonneg _) (norm_nonneg _)).mp h2).le

end

theorem leakOf_outside {l : List n} (hl : l.Nodup) (hne : l ≠ []) {U : Matrix n n ℂ} (hU : U ∈ Matrix.unitaryGroup n ℂ) :
    leakOf l U = ‖vec (outside (inclusion (some l)) U)‖ ^ 2 / l.length := by
  have hE : (inclusion (some l))ᴴ * inclusion (some l) = 1 := inclusion_isometry (cs := some l) (by rintro _ ⟨⟩; exact hl)
  have hd : (l.length : ℝ) ≠ 0 := by exact_mod_cast (List.length_pos_iff.mpr hne).ne'
  unfold outside
  rw [outside_norm hE, norm_unitary hU, ← Matrix.mul_assoc, inclusion_submatrix, norm_vec_sq, norm_vec_sq, hE, Matrix.trace_one, sub_div]
  unfold leakOf
  congr 1
  have : ((Fintype.card (CompIdx (some l)) : ℂ)).re = l.length := by
    have : Fintype.card (CompIdx (some l)) = l.length := Fintype.card_fin _
    rw [this]; simp
  rw [this, div_self hd]

theorem leakOf_mul {l : List n} (hl : l.Nodup) (hne : l ≠ []) {U V : Matrix n n ℂ} (hU : U ∈ Matrix.unitaryGroup n ℂ)
    (hV : V ∈ Matrix.unitaryGroup n ℂ) : √(leakOf l (V * U)) ≤ √(leakOf l U) + √(leakOf l V) := by
  have hE : (inclusion (some l))ᴴ * inclusion (some l) = 1 := inclusion_isometry (cs := some l) (by rintro _ ⟨⟩; exact hl)
  rw [leakOf_outside hl hne hU, leakOf_outside hl hne hV, leakOf_outside hl hne (mul_mem hV hU)]
  have h : ∀ x : ℝ, 0 ≤ x → √(x ^ 2 / l.length) = x / √l.length := by
    intro x hx
    rw [Real.sqrt_div (sq_nonneg x), Real.sqrt_sq hx]
  rw [h _ (norm_nonneg _), h _ (norm_nonneg _), h _ (norm_nonneg _), ← add_div]
  exact div_le_div_of_nonneg_right (outside_mul hE hU hV) (Real.sqrt_nonneg _)

omit [Fintype n] [DecidableEq n] in
theorem leakOf_inv {l : List n} (U : Matrix n n ℂ) : leakOf l Uᴴ = leakOf l U := by
  unfold leakOf
  rw [show Uᴴ.submatrix l.get l.get = (U.submatrix l.get l.get)ᴴ from rfl, Matrix.conjTranspose_conjTranspose, Matrix.trace_mul_comm]

/-- The leakage of two gates. -/
theorem leakOf_triangle {l : List n} (hl : l.Nodup) (hne : l ≠ []) {U V : Matrix n n ℂ} (hU : U ∈ Matrix.unitaryGroup n ℂ)
    (hV : V ∈ Matrix.unitaryGroup n ℂ) : √(leakOf l (V * U)) ≤ √(leakOf l U) + √(leakOf l V) ∧
      √(leakOf l U) ≤ √(leakOf l (V * U)) + √(leakOf l V) ∧ √(leakOf l V) ≤ √(leakOf l (V * U)) + √(leakOf l U) := by
  have hU' : Uᴴ ∈ Matrix.unitaryGroup n ℂ := Unitary.star_mem hU
  have hV' : Vᴴ ∈ Matrix.unitaryGroup n ℂ := Unitary.star_mem hV
  have e1 : Vᴴ * (V * U) = U := by
    rw [← Matrix.mul_assoc, show Vᴴ * V = 1 from Matrix.mem_unitaryGroup_iff'.mp hV, Matrix.one_mul]
  have e2 : V * U * Uᴴ = V := by
    rw [Matrix.mul_assoc, show U * Uᴴ = 1 from Matrix.mem_unitaryGroup_iff.mp hU, Matrix.mul_one]
  refine ⟨leakOf_mul hl hne hU hV, ?_, ?_⟩
  · have := leakOf_mul hl hne (mul_mem hV hU) hV'
    rwa [e1, leakOf_inv] at this
  · have := leakOf_mul hl hne hU' (mul_mem hV hU)
    rw [e2, leakOf_inv] at this
    linarith

theorem Gate.Ok.leakage {l : List n} (hl : l.Nodup) (hne : l ≠ []) {p : SPar n n} (hi : p.init = 1) (hc : ∀ H ∈ p.ctrl, H.IsHermitian)
    {g : Gate n (some l)} (h : g.Ok p) : g.leakage p = .ok (leakOf l (g.op p)) ∧ 0 ≤ leakOf l (g.op p) := by
  obtain ⟨hU, f, e1, e2⟩ := h.op hi hc
  obtain ⟨c, a1, a2, -, a4⟩ := c49_range l hl hne f _ e2 hU
  refine ⟨?_, (leakOf_range hU l hl hne).1⟩
  unfold Gate.leakage costOn
  rcases hq : readFwd { p with drift := g.drift }.bare.cfg (fresh { p with drift := g.drift }.bare.cfg g.times g.amps) with ⟨r, s'⟩
  rw [hq] at e1
  simp only at e1
  subst e1
  simp only [hq]
  rw [a1, a4]
  rfl

theorem NoisyGate.Ok.leakage {l : List n} {p : SPar n n} {hN : List (Matrix n n ℂ)} {procs : Procs} {K : Nat}
    (hM : MonteCarlo p hN procs K) {g : NoisyGate n (some l)} (h : g.Ok p) :
    g.leakage p hN procs K = .ok (mean ((List.range K).map fun k => leakOf l ((g.trace hN k).op p))) := by
  obtain ⟨fc, f, -, e2, -, e4, e5⟩ := h.traces hM
  unfold NoisyGate.leakage
  rw [e2]
  show incoherentLeakCosts l f = _
  unfold incoherentLeakCosts
  rw [allOk_map f _ (fun f => leakOf l (f.getLastD 0))]
  · show Except.ok (mean _) = _
    congr 2
    have := congrArg (List.map fun U => leakOf l U) e5
    rw [List.map_map, List.map_map] at this
    exact this
  · intro fk hfk
    have : fk.getLast? = some (fk.getLastD 0) := by
      cases fk with
      | nil => exact absurd rfl (e4 _ hfk)
      | cons a r => simp [List.getLast?_cons]
    rw [last_ok this]
    rfl

/-! ## The property -/

/-- The square roots of two leakages, without and with noise. -/
theorem two_leaky {l : List n} (hl : l.Nodup) (hne : l ≠ []) {p : SPar n n} (hi : p.init = 1) (hc : ∀ H ∈ p.ctrl, H.IsHermitian)
    {g₁ g₂ : Gate n (some l)} (h₁ : g₁.Ok p) (h₂ : g₂.Ok p) (T : Matrix (CompIdx (some l)) (CompIdx (some l)) ℂ) :
    ∃ c₁ c₂ c : ℝ, g₁.leakage p = .ok c₁ ∧ g₂.leakage p = .ok c₂ ∧
      Gate.leakage p (⟨g₁.drift ++ g₂.drift, g₁.times ++ g₂.times, g₁.amps ++ g₂.amps, T⟩ : Gate n (some l)) = .ok c ∧
      0 ≤ c₁ ∧ 0 ≤ c₂ ∧ 0 ≤ c ∧ √c ≤ √c₁ + √c₂ ∧ √c₁ ≤ √c + √c₂ ∧ √c₂ ≤ √c + √c₁ := by
  have hs : (⟨g₁.drift ++ g₂.drift, g₁.times ++ g₂.times, g₁.amps ++ g₂.amps, g₂.target * g₁.target⟩ : Gate n (some l)).Ok p := by
    have := sequence_ok [g₁, g₂] (by simp) (by simp [h₁, h₂] : ∀ g ∈ [g₁, g₂], g.Ok p)
    simpa [Gate.sequence] using this
  obtain ⟨a1, a2⟩ := h₁.leakage hl hne hi hc
  obtain ⟨b1, b2⟩ := h₂.leakage hl hne hi hc
  obtain ⟨d1, d2⟩ := hs.leakage hl hne hi hc
  rw [Gate.op_append hi h₁ h₂] at d1 d2
  exact ⟨_, _, _, a1, b1, d1, a2, b2, d2, leakOf_triangle hl hne (h₁.op hi hc).1 (h₂.op hi hc).1⟩

/-- **C155** The square roots of the leakages add up at most. -/
theorem c155_sequence (p : SPar n n) (hi : p.init = 1) (hc : ∀ H ∈ p.ctrl, H.IsHermitian) (l : List n) (hl : l.Nodup) (hne : l ≠ [])
    (gs : List (Gate n (some l))) (h0 : gs ≠ []) (h : ∀ g ∈ gs, g.Ok p) :
    ∃ (c : ℝ) (cg : List ℝ), (Gate.sequence gs).leakage p = .ok c ∧ gs.map (Gate.leakage p) = cg.map .ok ∧ 0 ≤ c ∧ (∀ x ∈ cg, 0 ≤ x) ∧
      √c ≤ (cg.map Real.sqrt).sum := by
  induction gs using List.reverseRecOn with
  | nil => exact absurd rfl h0
  | append_singleton gs g ih =>
    have hg := h g (by simp)
    obtain ⟨hcg, hcg0⟩ := hg.leakage hl hne hi hc
    by_cases h0 : gs = []
    · subst h0
      have : Gate.sequence ([] ++ [g]) = g := by simp [Gate.sequence]
      rw [this]
      exact ⟨_, [_], hcg, by rw [List.nil_append, List.map_singleton, hcg, List.map_singleton], hcg0, by simpa using hcg0, by simp⟩
    · have hall : ∀ k ∈ gs, k.Ok p := fun k hk => h k (by simp [hk])
      obtain ⟨c, cs', e1, e2, e3, e4, e5⟩ := ih h0 hall
      obtain ⟨c₁, c₂, c', f1, f2, f3, -, f5, f6, f7, -, -⟩ := two_leaky hl hne hi hc (sequence_ok gs h0 hall) hg
        (g.target * (Gate.sequence gs).target)
      rw [e1] at f1
      obtain rfl := Except.ok.inj f1
      refine ⟨c', cs' ++ [c₂], by rw [sequence_append]; exact f3, by rw [List.map_append, List.map_append, e2, List.map_singleton, f2, List.map_singleton], f6, ?_, ?_⟩
      · intro x hx
        rcases List.mem_append.mp hx with hx | hx
        · exact e4 x hx
        · rw [List.mem_singleton.mp hx]; exact f5
      · simp only [List.map_append, List.sum_append, List.map_cons, List.map_nil, List.sum_cons, List.sum_nil, add_zero]
        linarith

/-- **C155** A gate played `r` times has at most `r²` times the leakage. -/
theorem c155_repeated (p : SPar n n) (hi : p.init = 1) (hc : ∀ H ∈ p.ctrl, H.IsHermitian) (l : List n) (hl : l.Nodup) (hne : l ≠ [])
    (g : Gate n (some l)) (h : g.Ok p) (r : Nat) (hr : 0 < r) :
    ∃ c c₁ : ℝ, (Gate.sequence (List.replicate r g)).leakage p = .ok c ∧ g.leakage p = .ok c₁ ∧ 0 ≤ c₁ ∧ c ≤ r ^ 2 * c₁ := by
  obtain ⟨e1, e2⟩ := h.leakage hl hne hi hc
  obtain ⟨c, cg, f1, f2, f3, f4, f5⟩ := c155_sequence p hi hc l hl hne (List.replicate r g) (by simpa using hr.ne')
    (fun g' hg' => by rw [List.eq_of_mem_replicate hg']; exact h)
  have hcg : cg = List.replicate r (leakOf l (g.op p)) := by
    rw [List.map_replicate, e1] at f2
    have : (List.replicate r (leakOf l (g.op p))).map (Except.ok : ℝ → Except PyErr ℝ) = cg.map .ok := by rw [List.map_replicate]; exact f2
    exact (List.map_injective_iff.mpr (fun a b hab => Except.ok.inj hab) this).symm
  rw [hcg, List.map_replicate, List.sum_replicate, nsmul_eq_mul] at f5
  refine ⟨c, _, f1, e1, e2, ?_⟩
  have := pow_le_pow_left₀ (Real.sqrt_nonneg c) f5 2
  rw [Real.sq_sqrt f3, mul_pow, Real.sq_sqrt e2] at this
  exact this

/-- **C155** A gate with leakage is not hidden by a gate before or after it with less leakage. -/
theorem c155_not_hidden (p : SPar n n) (hi : p.init = 1) (hc : ∀ H ∈ p.ctrl, H.IsHermitian) (l : List n) (hl : l.Nodup) (hne : l ≠ [])
    (g₁ g₂ : Gate n (some l)) (h₁ : g₁.Ok p) (h₂ : g₂.Ok p) :
    ∃ c₁ c₂ c : ℝ, g₁.leakage p = .ok c₁ ∧ g₂.leakage p = .ok c₂ ∧ (Gate.sequence [g₁, g₂]).leakage p = .ok c ∧ |√c₁ - √c₂| ≤ √c := by
  obtain ⟨c₁, c₂, c, e1, e2, e3, -, -, -, -, e5, e6⟩ := two_leaky hl hne hi hc h₁ h₂ (g₂.target * g₁.target)
  refine ⟨c₁, c₂, c, e1, e2, ?_, by rw [abs_le]; constructor <;> linarith⟩
  have : Gate.sequence [g₁, g₂] = ⟨g₁.drift ++ g₂.drift, g₁.times ++ g₂.times, g₁.amps ++ g₂.amps, g₂.target * g₁.target⟩ := by
    simp [Gate.sequence]
  rw [this]
  exact e3

/-- **C155** With noise: the square roots of the leakages averaged over the traces add up at most. -/
theorem c155_noise (p : SPar n n) (hN : List (Matrix n n ℂ)) (procs : Procs) (K : Nat) (hM : MonteCarlo p hN procs K) (l : List n)
    (hl : l.Nodup) (hne : l ≠ []) (gs : List (NoisyGate n (some l))) (h0 : gs ≠ []) (h : ∀ g ∈ gs, g.Ok p) :
    ∃ (c : ℝ) (cg : List ℝ), (NoisyGate.sequence gs).leakage p hN procs K = .ok c ∧
      gs.map (NoisyGate.leakage p hN procs K) = cg.map .ok ∧ 0 ≤ c ∧ (∀ x ∈ cg, 0 ≤ x) ∧ √c ≤ (cg.map Real.sqrt).sum := by
  have hmean : ∀ g : NoisyGate n (some l), g.Ok p → 0 ≤ mean ((List.range K).map fun k => leakOf l ((g.trace hN k).op p)) := by
    intro g hg
    unfold mean
    refine div_nonneg (List.sum_nonneg fun x hx => ?_) (by positivity)
    obtain ⟨k, -, rfl⟩ := List.mem_map.mp hx
    exact ((hg.trace hM.noise k).leakage hl hne hM.init hM.ctrl).2
  induction gs using List.reverseRecOn with
  | nil => exact absurd rfl h0
  | append_singleton gs g ih =>
    have hg := h g (by simp)
    have hcg := hg.leakage hM
    by_cases h0 : gs = []
    · subst h0
      have : NoisyGate.sequence ([] ++ [g]) = g := by simp [NoisyGate.sequence, Gate.sequence]
      rw [this]
      exact ⟨_, [_], hcg, by rw [List.nil_append, List.map_singleton, hcg, List.map_singleton], hmean g hg, by simpa using hmean g hg, by simp⟩
    · have hall : ∀ k ∈ gs, k.Ok p := fun k hk => h k (by simp [hk])
      have hs := NoisyGate.sequence_ok gs h0 hall
      have hs' := NoisyGate.sequence_ok (gs ++ [g]) (by simp) h
      obtain ⟨c, cs', e1, e2, e3, e4, e5⟩ := ih h0 hall
      rw [hs.leakage hM] at e1
      obtain rfl := Except.ok.inj e1
      refine ⟨_, cs' ++ [_], hs'.leakage hM, by rw [List.map_append, List.map_append, e2, List.map_singleton, hcg, List.map_singleton], hmean _ hs', ?_, ?_⟩
      · intro x hx
        rcases List.mem_append.mp hx with hx | hx
        · exact e4 x hx
        · rw [List.mem_singleton.mp hx]; exact hmean g hg
      · simp only [List.map_append, List.sum_append, List.map_cons, List.map_nil, List.sum_cons, List.sum_nil, add_zero]
        have hop : ∀ k, Gate.op p ((NoisyGate.sequence (gs ++ [g])).trace hN k) =
            (g.trace hN k).op p * ((NoisyGate.sequence gs).trace hN k).op p := by
          intro k
          rw [NoisyGate.sequence_append, NoisyGate.trace_append _ _ (by rw [hs.steps]; exact hs.gate.computes.drift)]
          exact Gate.op_append hM.init (hs.trace hM.noise k) (hg.trace hM.noise k) _
        simp only [hop]
        refine (sqrt_mean_le _ _ _ _ (fun k _ => ?_) (fun k _ => ((hs.trace hM.noise k).leakage hl hne hM.init hM.ctrl).2)
          (fun k _ => ((hg.trace hM.noise k).leakage hl hne hM.init hM.ctrl).2) fun k _ =>
          leakOf_mul hl hne ((hs.trace hM.noise k).op hM.init hM.ctrl).1 ((hg.trace hM.noise k).op hM.init hM.ctrl).1).trans ?_
        · exact (leakOf_range (mul_mem ((hg.trace hM.noise k).op hM.init hM.ctrl).1 ((hs.trace hM.noise k).op hM.init hM.ctrl).1) l hl hne).1
        · linarith

/-! ## The bound is attained, and leakage may return -/

namespace Ex155
open Ex115

/-- A rotation between the only computational state and the other level. -/
noncomputable def swing (θ : ℝ) : Gate (Fin 2) (some [0]) := ⟨[0], [1], [[θ, 0]], (1 : Matrix (Fin 1) (Fin 1) ℂ)⟩

theorem swing_ok {L : Lapack (Fin 2)} (h : L.EighOk) (θ : ℝ) : (swing θ).Ok (par L []) :=
  ⟨computes h _ (by simp [swing]) _ (by simp [swing]) rfl, rfl, by simp [swing, par], by simp [swing], one_mem _⟩

/-- The rotation by `x`. -/
noncomputable def rot (x : ℝ) : Matrix (Fin 2) (Fin 2) ℂ :=
  !![(Real.cos x : ℂ), -Complex.I * Real.sin x; -Complex.I * Real.sin x, (Real.cos x : ℂ)]

theorem rot_mul (x y : ℝ) : rot x * rot y = rot (x + y) := by
  have h : Complex.I * Complex.I = -1 := Complex.I_mul_I
  ext i j
  fin_cases i <;> fin_cases j <;> simp [rot, Matrix.mul_apply, Fin.sum_univ_two, Complex.cos_add, Complex.sin_add] <;>
    first | ring1 | linear_combination (Complex.sin x * Complex.sin y) * h

/-- The basis in which the rotation is diagonal. -/
noncomputable def basis : (Matrix (Fin 2) (Fin 2) ℂ)ˣ where
  val := !![1, 1; 1, -1]
  inv := !![1 / 2, 1 / 2; 1 / 2, -1 / 2]
  val_inv := by ext i j; fin_cases i <;> fin_cases j <;> norm_num [Matrix.mul_apply, Fin.sum_univ_two]
  inv_val := by ext i j; fin_cases i <;> fin_cases j <;> norm_num [Matrix.mul_apply, Fin.sum_univ_two]

theorem diagonal_two (a b : ℂ) : Matrix.diagonal ![a, b] = !![a, 0; 0, b] := by
  ext i j; fin_cases i <;> fin_cases j <;> simp

theorem exp_rot (x : ℝ) : NormedSpace.exp (!![0, -Complex.I * x; -Complex.I * x, 0] : Matrix (Fin 2) (Fin 2) ℂ) = rot x := by
  have h : (!![0, -Complex.I * x; -Complex.I * x, 0] : Matrix (Fin 2) (Fin 2) ℂ) =
      (basis : Matrix (Fin 2) (Fin 2) ℂ) * Matrix.diagonal ![-(x * Complex.I), x * Complex.I] * (basis⁻¹ : (Matrix (Fin 2) (Fin 2) ℂ)ˣ) := by
    show _ = !![1, 1; 1, -1] * _ * !![1 / 2, 1 / 2; 1 / 2, -1 / 2]
    rw [diagonal_two]
    ext i j
    fin_cases i <;> fin_cases j <;> simp [Matrix.mul_apply, Fin.sum_univ_two] <;> ring
  have hd : NormedSpace.exp (Matrix.diagonal ![-(x * Complex.I), x * Complex.I] : Matrix (Fin 2) (Fin 2) ℂ) =
      Matrix.diagonal ![Complex.cos x - Complex.sin x * Complex.I, Complex.cos x + Complex.sin x * Complex.I] := by
    rw [Matrix.exp_diagonal]
    congr 1
    funext i
    fin_cases i
    · simp only [Pi.coe_exp, Fin.zero_eta, Matrix.cons_val_zero]
      rw [← Complex.exp_eq_exp_ℂ, show -((x : ℂ) * Complex.I) = (-x : ℂ) * Complex.I by ring, Complex.exp_mul_I, Complex.cos_neg,
        Complex.sin_neg]
      ring
    · simp only [Pi.coe_exp, Fin.mk_one, Matrix.cons_val_one]
      rw [← Complex.exp_eq_exp_ℂ]
      exact Complex.exp_mul_I _
  rw [h, Matrix.exp_units_conj, hd]
  show !![1, 1; 1, -1] * _ * !![1 / 2, 1 / 2; 1 / 2, -1 / 2] = _
  rw [diagonal_two]
  ext i j
  fin_cases i <;> fin_cases j <;> simp [Matrix.mul_apply, Fin.sum_univ_two, rot] <;> ring

theorem op_swing {L : Lapack (Fin 2)} (h : L.EighOk) (θ : ℝ) : (swing θ).op (par L []) = rot θ := by
  have hcomp : Computes { par L [] with drift := [0] } [1] := (swing_ok h θ).computes
  obtain ⟨f, e1, e2⟩ := hcomp.fwd [[θ, 0]] rfl (by simp [par])
  rw [hcomp.steps_eq _ rfl] at e2
  obtain ⟨F, e3, e4⟩ := e2.2.2 0 (by simp)
  rw [e2.2.1] at e3
  obtain rfl := Option.some.inj e3
  have hl : f.length = 2 := e2.1
  have hlast : f.getLast? = some (rot θ) := by
    rw [List.getLast?_eq_getElem?, hl, e4]
    congr 1
    show NormedSpace.exp (((1 : ℝ) : ℂ) • ((-Complex.I) • hamiltonian 0 (par L []).ctrl [θ, 0])) * 1 = _
    have hg : ((1 : ℝ) : ℂ) • ((-Complex.I) • hamiltonian 0 (par L []).ctrl [θ, 0]) =
        (!![0, -Complex.I * θ; -Complex.I * θ, 0] : Matrix (Fin 2) (Fin 2) ℂ) := by
      ext i j
      fin_cases i <;> fin_cases j <;> simp [hamiltonian, par]
    rw [hg, exp_rot, Matrix.mul_one]
  have hr : (readFwd { par L [] with drift := (swing θ).drift }.bare.cfg
      (fresh { par L [] with drift := (swing θ).drift }.bare.cfg [1] [[θ, 0]])).1 = .ok f := e1
  unfold Gate.op
  rw [show (swing θ).times = [1] from rfl, show (swing θ).amps = [[θ, 0]] from rfl, hr]
  exact (last_value hlast).2

theorem leak_rot (x : ℝ) : leakOf [(0 : Fin 2)] (rot x) = Real.sin x ^ 2 := by
  have h := Real.sin_sq_add_cos_sq x
  unfold leakOf
  rw [Cost.trace_eq_sum]
  have : ∑ j : Fin [(0 : Fin 2)].length, ∑ i : Fin [(0 : Fin 2)].length,
      ‖(rot x).submatrix [(0 : Fin 2)].get [(0 : Fin 2)].get i j‖ ^ 2 = Real.cos x ^ 2 := by
    show ∑ j : Fin 1, ∑ i : Fin 1, ‖(rot x) ([(0 : Fin 2)].get i) ([(0 : Fin 2)].get j)‖ ^ 2 = _
    simp only [Finset.univ_unique, Finset.sum_singleton]
    show ‖(Real.cos x : ℂ)‖ ^ 2 = _
    rw [Complex.norm_real, Real.norm_eq_abs, sq_abs]
  rw [this]
  simp
  linarith

end Ex155

open Ex155 Ex115 in
/-- **C155** Rotations into the other level: the angles add up. -/
theorem c155_rotations (L : Lapack (Fin 2)) (h : L.EighOk) (θs : List ℝ) (hne : θs ≠ []) :
    (Gate.sequence (θs.map swing)).leakage (par L []) = .ok (Real.sin θs.sum ^ 2) := by
  have hok : ∀ l : List ℝ, ∀ g ∈ l.map swing, g.Ok (par L []) := by
    intro l g hg
    obtain ⟨d, -, rfl⟩ := List.mem_map.mp hg
    exact swing_ok h d
  have hop : (Gate.sequence (θs.map swing)).op (par L []) = rot θs.sum := by
    induction θs using List.reverseRecOn with
    | nil => exact absurd rfl hne
    | append_singleton θs θ ih =>
      by_cases h0 : θs = []
      · subst h0
        have : Gate.sequence (([] ++ [θ]).map swing) = swing θ := by simp [Gate.sequence]
        rw [this, op_swing h]
        simp
      · rw [List.map_append, List.map_singleton, sequence_append, Gate.op_append rfl (sequence_ok _ (by simpa using h0) (hok θs)) (swing_ok h θ),
          ih h0, op_swing h, rot_mul]
        simp [add_comm]
  have hc : ∀ H ∈ (par L []).ctrl, H.IsHermitian := Ex93.ctrl_hermitian L
  rw [((sequence_ok _ (by simpa using hne) (hok θs)).leakage (by simp) (by simp) rfl hc).1, hop, leak_rot]

open Ex155 Ex115 in
/-- **C155** The factor `r²` cannot be improved, and what leaks in one gate may return in the next. -/
theorem c155_attained (L : Lapack (Fin 2)) (h : L.EighOk) (r : Nat) (hr : 0 < r) (q : ℝ) (hq : q < r ^ 2) :
    ∃ (θ c c₁ : ℝ), (Gate.sequence (List.replicate r (swing θ))).leakage (par L []) = .ok c ∧ (swing θ).leakage (par L []) = .ok c₁ ∧
      0 < c₁ ∧ q * c₁ < c ∧ (swing (-θ)).leakage (par L []) = .ok c₁ ∧ (Gate.sequence [swing θ, swing (-θ)]).leakage (par L []) = .ok 0 := by
  obtain ⟨θ, h1, h2⟩ := sin_repeated r hr q hq
  have e1 := c155_rotations L h (List.replicate r θ) (by simpa using hr.ne')
  have e2 := c155_rotations L h [θ] (by simp)
  have e3 := c155_rotations L h [-θ] (by simp)
  have e4 := c155_rotations L h [θ, -θ] (by simp)
  have hs : ∀ g : Gate (Fin 2) (some [0]), Gate.sequence [g] = g := fun g => by simp [Gate.sequence]
  simp only [List.map_cons, List.map_nil, hs, List.sum_cons, List.sum_nil, add_zero, Real.sin_neg, neg_sq, add_neg_cancel, Real.sin_zero,
    List.map_replicate, List.sum_replicate, nsmul_eq_mul] at e1 e2 e3 e4
  exact ⟨θ, _, _, e1, e2, by positivity, h2, e3, by simpa using e4⟩

/-! ## Examples -/

namespace Ex155
open Ex115

/-- A drifting pulse of two steps, one of two levels computational. -/
noncomputable def pulse : Gate (Fin 2) (some [1]) := ⟨[Z, 0], [1, 2], [[3, 4], [5, 6]], (1 : Matrix (Fin 1) (Fin 1) ℂ)⟩

theorem pulse_ok {L : Lapack (Fin 2)} (h : L.EighOk) : pulse.Ok (par L []) :=
  ⟨computes h _ (by simpa [pulse] using Z_hermitian) _ (by simp [pulse]) rfl, rfl, by simp [pulse, par],
    by simpa [pulse] using Z_hermitian, one_mem _⟩

example : ∃ (L : Lapack (Fin 2)) (c c₁ d : ℝ) (cg : List ℝ), (Gate.sequence (List.replicate 10 pulse)).leakage (par L []) = .ok c ∧
    pulse.leakage (par L []) = .ok c₁ ∧ c ≤ 100 * c₁ ∧ (Gate.sequence [pulse, pulse, pulse]).leakage (par L []) = .ok d ∧
    √d ≤ (cg.map Real.sqrt).sum ∧ cg.length = 3 := by
  obtain ⟨L, hE, -, -, -⟩ := lapack_exists (Fin 2)
  obtain ⟨c, c₁, e1, e2, -, e4⟩ := c155_repeated (par L []) rfl (Ex93.ctrl_hermitian L) [1] (by simp) (by simp) pulse (pulse_ok hE) 10
    (by norm_num)
  obtain ⟨d, cg, f1, f2, -, -, f5⟩ := c155_sequence (par L []) rfl (Ex93.ctrl_hermitian L) [1] (by simp) (by simp) [pulse, pulse, pulse]
    (by simp) (by simp [pulse_ok hE])
  exact ⟨L, c, c₁, d, cg, e1, e2, by norm_num at e4; exact e4, f1, f5, by simpa using (congrArg List.length f2).symm⟩

/-- With noise in five traces. -/
example : ∃ (L : Lapack (Fin 2)) (c : ℝ) (cg : List ℝ),
    (NoisyGate.sequence [⟨pulse, [fun _ k => k, fun _ k => 1 - k]⟩, ⟨pulse, [fun _ k => 3 * k, fun _ k => 2 - k]⟩]).leakage (par L []) [Z]
      (.int 1) 5 = .ok c ∧ √c ≤ (cg.map Real.sqrt).sum ∧ cg.length = 2 := by
  obtain ⟨L, hE, -, -, -⟩ := lapack_exists (Fin 2)
  obtain ⟨c, cg, f1, f2, -, -, f5⟩ := c155_noise (par L []) [Z] (.int 1) 5 (Ex154.solver_ok L 5 (by norm_num)) [1] (by simp) (by simp)
    [⟨pulse, [fun _ k => k, fun _ k => 1 - k]⟩, ⟨pulse, [fun _ k => 3 * k, fun _ k => 2 - k]⟩] (by simp) (by
      intro g hg
      simp only [List.mem_cons, List.not_mem_nil, or_false] at hg
      rcases hg with rfl | rfl <;> exact ⟨pulse_ok hE, rfl⟩)
  exact ⟨L, c, cg, f1, f5, by simpa using (congrArg List.length f2).symm⟩

/-- A leaking gate next to a gate which does nothing. -/
example : ∃ (L : Lapack (Fin 2)) (c₁ c₂ c : ℝ), (swing 1).leakage (par L []) = .ok c₁ ∧ (swing 0).leakage (par L []) = .ok c₂ ∧
    (Gate.sequence [swing 1, swing 0]).leakage (par L []) = .ok c ∧ |√c₁ - √c₂| ≤ √c := by
  obtain ⟨L, hE, -, -, -⟩ := lapack_exists (Fin 2)
  obtain ⟨c₁, c₂, c, h⟩ := c155_not_hidden (par L []) rfl (Ex93.ctrl_hermitian L) [0] (by simp) (by simp) (swing 1) (swing 0)
    (swing_ok hE 1) (swing_ok hE 0)
  exact ⟨L, c₁, c₂, c, h⟩

end Ex155

end Verif.Sim
