import Verif.Cost.Sensitivity
import Mathlib.Algebra.Order.Chebyshev
import Mathlib.Analysis.InnerProductSpace.PiL2

/-!
# C118: a gate of small infidelity is good for every initial state

`OperationInfidelity` (cost_functions.py:1171-1275) on a solver started with the identity and `StateInfidelity`
(cost_functions.py:989-1038) on the same solver started with a state.
-/

namespace Verif.Cost
open Verif Verif.Operator Verif.Solver Matrix

variable {n : Type} [Fintype n] [DecidableEq n]

/-! ## Specification -/

/-- A state of the computational subspace as a ket of the full space. -/
def embed (cs : Option (List n)) (ψ : CompIdx cs → ℂ) : Matrix n (Fin 1) ℂ := fun i _ => ∑ a, if sel cs a = i then ψ a else 0

/-- The same solver with another initial state. -/
def startedWith {m k : Type} (p : SPar n m) (ψ : Matrix n k ℂ) : SPar n k :=
  { L := p.L, method := p.method, skew := p.skew, calcDeriv := p.calcDeriv, approx := p.approx, init := ψ, drift := p.drift,
    ctrl := p.ctrl, tf := p.tf, xTimes := p.xTimes, amp := p.amp }

/-- The ideal final state, as the bra which `StateInfidelity` expects. -/
noncomputable def idealBra (cs : Option (List n)) (T : Matrix (CompIdx cs) (CompIdx cs) ℂ) (ψ : CompIdx cs → ℂ) :
    Matrix (Fin 1) (CompIdx cs) ℂ := fun _ i => star (∑ a, T i a * ψ a)

/-! ## Lemmas -/

omit [DecidableEq n] in
theorem foldl_apply {m k : Type} [Fintype m] (l : List (Matrix n n ℂ)) (I : Matrix n m ℂ) (ψ : Matrix m k ℂ) :
    l.foldl (fun F P => P * F) (I * ψ) = l.foldl (fun F P => P * F) I * ψ := by
  induction l generalizing I with
  | nil => rfl
  | cons P l ih => rw [List.foldl_cons, List.foldl_cons, ← Matrix.mul_assoc, ih]

theorem started_final {k : Type} (p : SPar n n) (hi : p.init = 1) (ψ : Matrix n k ℂ) (τ : List ℝ) (u : Pulse) :
    (startedWith p ψ).final τ u = p.final τ u * ψ := by
  unfold SPar.final
  rw [hi, ← foldl_apply, Matrix.one_mul]
  rfl

theorem selRows_embed (cs : Option (List n)) (U : Matrix n n ℂ) (ψ : CompIdx cs → ℂ) (i : CompIdx cs) :
    (U * embed cs ψ) (sel cs i) 0 = ∑ a, U (sel cs i) (sel cs a) * ψ a := by
  rw [Matrix.mul_apply]
  unfold embed
  simp only [Finset.mul_sum, mul_ite, mul_zero]
  rw [Finset.sum_comm]
  refine Finset.sum_congr rfl fun a _ => ?_
  simp

/-- The mean of the squared diagonal entries in any basis is at least the squared mean. -/
theorem trace_basis {k : Type} [Fintype k] [DecidableEq k] (X B : Matrix k k ℂ) (hB : B ∈ Matrix.unitaryGroup k ℂ) :
    ‖X.trace‖ ^ 2 ≤ Fintype.card k * ∑ i, ‖(Bᴴ * X * B) i i‖ ^ 2 := by
  have e : X.trace = ∑ i, (Bᴴ * X * B) i i := by
    have : (Bᴴ * X * B).trace = X.trace := by
      rw [Matrix.trace_mul_cycle, show B * Bᴴ = 1 from Matrix.mem_unitaryGroup_iff.mp hB, Matrix.one_mul]
    rw [← this]
    rfl
  rw [e]
  refine (pow_le_pow_left₀ (norm_nonneg _) (norm_sum_le _ _) 2).trans ?_
  have := sq_sum_le_card_mul_sum_sq (s := Finset.univ) (f := fun i => ‖(Bᴴ * X * B) i i‖)
  simpa using this

/-- Every normalised vector is the first column of a unitary. -/
theorem extend_unitary {k : Type} [Fintype k] [DecidableEq k] (ψ : k → ℂ) (hψ : ∑ i, ‖ψ i‖ ^ 2 = 1) (i₀ : k) :
    ∃ B ∈ Matrix.unitaryGroup k ℂ, ∀ i, B i i₀ = ψ i := by
  have hv : Orthonormal ℂ (({i₀} : Set k).domRestrict fun _ : k => (WithLp.toLp 2 ψ : EuclideanSpace ℂ k)) := by
    refine ⟨fun i => ?_, fun i j hij => (hij (Subsingleton.elim i j)).elim⟩
    show ‖(WithLp.toLp 2 ψ : EuclideanSpace ℂ k)‖ = 1
    rw [EuclideanSpace.norm_eq, hψ, Real.sqrt_one]
  obtain ⟨b, hb⟩ := hv.exists_orthonormalBasis_extension_of_card_eq (by simp)
  refine ⟨(EuclideanSpace.basisFun k ℂ).toBasis.toMatrix b,
    OrthonormalBasis.toMatrix_orthonormalBasis_mem_unitary _ _, fun i => ?_⟩
  rw [Module.Basis.toMatrix_apply, hb i₀ rfl]
  simp

theorem stateCost_value (p : SPar n (Fin 1)) (τ : List ℝ) (hv : p.Valid τ) (hst : Stable p.cfg) (cs : Option (List n))
    (T : Matrix (Fin 1) (CompIdx cs) ℂ) (r : Bool) (u : Pulse) (s : St n (Fin 1)) (hr : Ready p τ u s) :
    (costOn (stateCosts cs T r) p.cfg s).1 = .ok (1 - ‖∑ i, T 0 i * p.final τ u (sel cs i) 0‖ ^ 2) := by
  obtain ⟨fc, s1, c1, c2, -⟩ := hr.fwd hv hst
  unfold costOn
  rw [c1]
  simp only
  unfold stateCosts
  rw [last_ok (final_last c2)]
  simp only [bind, Except.bind]
  rw [stateFid_eq]
  rfl

theorem overlap_eq (cs : Option (List n)) (T : Matrix (CompIdx cs) (CompIdx cs) ℂ) (U : Matrix n n ℂ) (ψ : CompIdx cs → ℂ) :
    ∑ i, idealBra cs T ψ 0 i * (U * embed cs ψ) (sel cs i) 0 =
      star ψ ⬝ᵥ ((Tᴴ * U.submatrix (sel cs) (sel cs)) *ᵥ ψ) := by
  rw [← Matrix.mulVec_mulVec, Matrix.dotProduct_mulVec, ← Matrix.star_mulVec]
  refine Finset.sum_congr rfl fun i _ => ?_
  rw [selRows_embed]
  rfl

theorem diag_basis {k : Type} [Fintype k] (X B : Matrix k k ℂ) (a : k) :
    (Bᴴ * X * B) a a = star (fun i => B i a) ⬝ᵥ (X *ᵥ fun i => B i a) := by
  rw [Matrix.mul_assoc, Matrix.mul_apply]
  refine Finset.sum_congr rfl fun i _ => ?_
  rw [Matrix.conjTranspose_apply, Matrix.mul_apply]
  rfl

theorem sum_sq_dot {k : Type} [Fintype k] (v : k → ℂ) : ((∑ i, ‖v i‖ ^ 2 : ℝ) : ℂ) = star v ⬝ᵥ v := by
  push_cast
  refine Finset.sum_congr rfl fun i _ => ?_
  rw [← Complex.conj_mul']
  rfl

theorem sum_sq_unitary {k : Type} [Fintype k] [DecidableEq k] {B : Matrix k k ℂ} (hB : B ∈ Matrix.unitaryGroup k ℂ) (v : k → ℂ) :
    ∑ i, ‖(B *ᵥ v) i‖ ^ 2 = ∑ i, ‖v i‖ ^ 2 := by
  have h : ((∑ i, ‖(B *ᵥ v) i‖ ^ 2 : ℝ) : ℂ) = ((∑ i, ‖v i‖ ^ 2 : ℝ) : ℂ) := by
    rw [sum_sq_dot, sum_sq_dot, Matrix.star_mulVec, ← Matrix.dotProduct_mulVec, Matrix.mulVec_mulVec,
      show Bᴴ * B = 1 from Matrix.mem_unitaryGroup_iff'.mp hB, Matrix.one_mulVec]
  exact_mod_cast h

theorem norm_column {k : Type} [Fintype k] [DecidableEq k] {B : Matrix k k ℂ} (hB : B ∈ Matrix.unitaryGroup k ℂ) (a : k) :
    ∑ i, ‖B i a‖ ^ 2 = 1 := by
  have h := sum_sq_unitary hB (Pi.single a 1)
  simp only [Matrix.mulVec_single_one, Matrix.col_apply] at h
  rw [h, Finset.sum_eq_single a] <;> simp +contextual

theorem embed_norm (cs : Option (List n)) (hcs : ∀ l, cs = some l → l.Nodup) (ψ : CompIdx cs → ℂ) :
    ∑ i, ‖embed cs ψ i 0‖ ^ 2 = ∑ a, ‖ψ a‖ ^ 2 := by
  have hinj := sel_injective hcs
  have h1 : ∀ a, embed cs ψ (sel cs a) 0 = ψ a := by
    intro a
    unfold embed
    rw [Finset.sum_eq_single a]
    · simp
    · intro b _ hb
      rw [if_neg fun h => hb (hinj h)]
    · simp
  have h2 : ∀ i ∉ Finset.univ.image (sel cs), ‖embed cs ψ i 0‖ ^ 2 = 0 := by
    intro i hi
    have : embed cs ψ i 0 = 0 := by
      unfold embed
      refine Finset.sum_eq_zero fun a _ => if_neg fun h => hi ?_
      exact Finset.mem_image.mpr ⟨a, Finset.mem_univ a, h⟩
    rw [this]
    simp
  rw [← Finset.sum_subset (Finset.subset_univ (Finset.univ.image (sel cs))) fun i _ hi => h2 i hi,
    Finset.sum_image fun a _ b _ h => hinj h]
  simp only [h1]

theorem bra_norm {cs : Option (List n)} {T : Matrix (CompIdx cs) (CompIdx cs) ℂ} (hT : T ∈ Matrix.unitaryGroup (CompIdx cs) ℂ)
    {ψ : CompIdx cs → ℂ} (hψ : ∑ i, ‖ψ i‖ ^ 2 = 1) : ∑ i, ‖idealBra cs T ψ 0 i‖ ^ 2 = 1 := by
  have := sum_sq_unitary hT ψ
  rw [hψ] at this
  rw [← this]
  refine Finset.sum_congr rfl fun i _ => ?_
  unfold idealBra
  rw [norm_star]
  rfl

theorem overlap_le (cs : Option (List n)) (hcs : ∀ l, cs = some l → l.Nodup) {T : Matrix (CompIdx cs) (CompIdx cs) ℂ}
    (hT : T ∈ Matrix.unitaryGroup (CompIdx cs) ℂ) {U : Matrix n n ℂ} (hU : U ∈ Matrix.unitaryGroup n ℂ) (ψ : CompIdx cs → ℂ)
    (hψ : ∑ i, ‖ψ i‖ ^ 2 = 1) : ‖∑ i, idealBra cs T ψ 0 i * (U * embed cs ψ) (sel cs i) 0‖ ^ 2 ≤ 1 := by
  obtain ⟨F, h1, -, h2⟩ := c51_range cs hcs (idealBra cs T ψ) (U * embed cs ψ) false (bra_norm hT hψ) (by
    have := sum_sq_unitary hU fun i => embed cs ψ i 0
    rw [embed_norm cs hcs, hψ] at this
    rw [← this]
    rfl)
  rw [stateFid_eq] at h1
  exact (Except.ok.inj h1).le.trans h2

/-! ## The property -/

/-- **C118** For every orthonormal basis of the computational subspace (the columns of `B`) the mean of the infidelities of the basis
states is at most the infidelity of the gate. -/
theorem c118_basis (p : SPar n n) (τ : List ℝ) (cl : Closest) (cs : Option (List n)) (T : Matrix (CompIdx cs) (CompIdx cs) ℂ)
    (mcu r : Bool) (hs : NoisySystem p τ [] cs T mcu false) (hi : p.init = 1) (B : Matrix (CompIdx cs) (CompIdx cs) ℂ)
    (hB : B ∈ Matrix.unitaryGroup (CompIdx cs) ℂ) (u : Pulse) :
    ∃ (c : ℝ) (δ : CompIdx cs → ℝ), (∀ s, Ready p τ u s → (costOn (opCosts cl cs T mcu) p.cfg s).1 = .ok c) ∧
      (∀ a s, Ready (startedWith p (embed cs fun i => B i a)) τ u s →
        (costOn (stateCosts cs (idealBra cs T fun i => B i a) r) (startedWith p (embed cs fun i => B i a)).cfg s).1 = .ok (δ a)) ∧
      (∀ a, 0 ≤ δ a) ∧ (∑ a, δ a) / dim cs ≤ c := by
  have hT : T ∈ Matrix.unitaryGroup (CompIdx cs) ℂ := hs.target.resolve_left (by simp)
  have hU : p.final τ u ∈ Matrix.unitaryGroup n ℂ := by
    rw [clean_final p τ hs.method hs.expm []]
    exact noisyFinal_unitary p [] τ hs.valid hs.drift hs.ctrl hs.noise hs.init u 0
  have hd : 0 < dim cs := by unfold dim; exact_mod_cast Fintype.card_pos_iff.mpr hs.states
  refine ⟨_, fun a => _, fun s hr => opCost_value p τ hs.valid hs.stable cl cs T mcu u s hr,
    fun a s hr => stateCost_value _ τ hs.valid hs.stable cs _ r u s hr, fun a => ?_, ?_⟩
  · show 0 ≤ 1 - _
    rw [started_final p hi]
    have := overlap_le cs hs.distinct hT hU (fun i => B i a) (norm_column hB a)
    linarith
  · simp only [started_final p hi, overlap_eq, ← diag_basis, Finset.sum_sub_distrib, Finset.sum_const, Finset.card_univ, nsmul_eq_mul,
      mul_one]
    have h := trace_basis (Tᴴ * (p.final τ u).submatrix (sel cs) (sel cs)) B hB
    unfold entFid
    rw [truncTo_eq cl cs mcu hs.plain]
    have e : ((Fintype.card (CompIdx cs) : ℕ) : ℝ) = dim cs := rfl
    rw [e] at h ⊢
    rw [sub_div, div_self hd.ne', div_div]
    refine sub_le_sub_left ?_ _
    rw [div_le_div_iff₀ (by positivity) hd]
    nlinarith

/-- **C118** The infidelity of every state of the computational subspace is at most the dimension times the infidelity of the gate. -/
theorem c118_state (p : SPar n n) (τ : List ℝ) (cl : Closest) (cs : Option (List n)) (T : Matrix (CompIdx cs) (CompIdx cs) ℂ)
    (mcu r : Bool) (hs : NoisySystem p τ [] cs T mcu false) (hi : p.init = 1) (ψ : CompIdx cs → ℂ) (hψ : ∑ i, ‖ψ i‖ ^ 2 = 1)
    (u : Pulse) :
    ∃ c δ : ℝ, (∀ s, Ready p τ u s → (costOn (opCosts cl cs T mcu) p.cfg s).1 = .ok c) ∧
      (∀ s, Ready (startedWith p (embed cs ψ)) τ u s →
        (costOn (stateCosts cs (idealBra cs T ψ) r) (startedWith p (embed cs ψ)).cfg s).1 = .ok δ) ∧
      0 ≤ δ ∧ δ ≤ dim cs * c := by
  obtain ⟨i₀⟩ := hs.states
  obtain ⟨B, hB, e⟩ := extend_unitary ψ hψ i₀
  obtain ⟨c, δ, h1, h2, h3, h4⟩ := c118_basis p τ cl cs T mcu r hs hi B hB u
  have e' : (fun i => B i i₀) = ψ := funext e
  have h2' := h2 i₀
  rw [e'] at h2'
  refine ⟨c, δ i₀, h1, h2', h3 i₀, ?_⟩
  have hd : 0 < dim cs := by unfold dim; exact_mod_cast Fintype.card_pos_iff.mpr ⟨i₀⟩
  rw [div_le_iff₀ hd, mul_comm] at h4
  exact (Finset.single_le_sum (fun a _ => h3 a) (Finset.mem_univ i₀)).trans h4

/-- **C118** The leakage out of the computational subspace is at most the infidelity of the gate. -/
theorem c118_leakage (p : SPar n n) (τ : List ℝ) (cl : Closest) (l : List n) (T : Matrix (Fin l.length) (Fin l.length) ℂ)
    (hs : NoisySystem p τ [] (some l) T false false) (u : Pulse) :
    ∃ c leak : ℝ, (∀ s, Ready p τ u s → (costOn (opCosts cl (some l) T false) p.cfg s).1 = .ok c) ∧
      (∀ s, Ready p τ u s → (costOn (leakCosts l) p.cfg s).1 = .ok leak) ∧ 0 ≤ leak ∧ leak ≤ c := by
  have hne : l ≠ [] := by
    rintro rfl
    exact (hs.states.some : Fin 0).elim0
  have hl : l.Nodup := hs.distinct l rfl
  have hT : T ∈ Matrix.unitaryGroup (Fin l.length) ℂ := hs.target.resolve_left (by simp)
  have hU : p.final τ u ∈ Matrix.unitaryGroup n ℂ := by
    rw [clean_final p τ hs.method hs.expm []]
    exact noisyFinal_unitary p [] τ hs.valid hs.drift hs.ctrl hs.noise hs.init u 0
  obtain ⟨c', h0, h1, h2, h3⟩ := c49_range l hl hne [p.final τ u] (p.final τ u) rfl hU
  have h4 := (c43_truncated cl l hl hne T hT _ hU).2.1
  refine ⟨_, c', fun s hr => opCost_value p τ hs.valid hs.stable cl (some l) T false u s hr, fun s hr => ?_, h1, ?_⟩
  · obtain ⟨fc, s1, c1, c2, -⟩ := hr.fwd hs.valid hs.stable
    unfold costOn
    rw [c1]
    simp only
    rw [← h0]
    unfold leakCosts
    rw [last_ok (final_last c2), last_ok (l := [p.final τ u]) (a := p.final τ u) rfl]
  · rw [h3]
    linarith

/-- **C118** The converse is wrong: the gate may be as far as possible from the target although every state of the basis is mapped to
its ideal final state. -/
theorem c118_no_converse (cl : Closest) (mcu r : Bool) : ∃ U ∈ Matrix.unitaryGroup (Fin 2) ℂ,
    (∀ a : Fin 2, stateFid (none : Option (List (Fin 2))) (idealBra none (1 : Matrix (Fin 2) (Fin 2) ℂ) (Pi.single a 1))
      (U * embed none (Pi.single a 1)) r = .ok 1) ∧ entFid cl (n := Fin 2) none 1 U mcu = 0 := by
  refine ⟨!![1, 0; 0, -1], ?_, fun a => ?_, ?_⟩
  · rw [Matrix.mem_unitaryGroup_iff]
    ext i j
    fin_cases i <;> fin_cases j <;> simp [Matrix.mul_apply]
  · rw [stateFid_eq]
    have h : ∑ i : Fin 2, idealBra none (1 : Matrix (Fin 2) (Fin 2) ℂ) (Pi.single a 1) 0 i *
        ((!![1, 0; 0, -1] : Matrix (Fin 2) (Fin 2) ℂ) * embed none (Pi.single a 1)) i 0 =
        star (Pi.single a 1) ⬝ᵥ (((1 : Matrix (Fin 2) (Fin 2) ℂ)ᴴ * !![1, 0; 0, -1]) *ᵥ Pi.single a (1 : ℂ)) :=
      overlap_eq (none : Option (List (Fin 2))) 1 _ (Pi.single a 1)
    refine congrArg Except.ok ?_
    refine (congrArg (fun z : ℂ => ‖z‖ ^ 2) h).trans ?_
    fin_cases a <;> simp [Matrix.mulVec, dotProduct, Fin.sum_univ_two]
  · show ‖((1 : Matrix (Fin 2) (Fin 2) ℂ)ᴴ * !![1, 0; 0, -1]).trace‖ ^ 2 / _ / _ = 0
    simp [Matrix.trace_fin_two]

/-! ## Examples -/

/-- `c118_state` applies to a qubit and the state `|1>`. -/
example (cl : Closest) : ∃ (L : Lapack (Fin 2)) (c δ : ℝ),
    (costOn (opCosts cl none 1 false) (qubitPar L .none true).cfg
      (fresh (qubitPar L .none true).cfg [1, 2, 3] [[1, 2], [3, 4], [5, 6]])).1 = .ok c ∧
    (costOn (stateCosts none (idealBra none 1 ![0, 1]) false) (startedWith (qubitPar L .none true) (embed none ![0, 1])).cfg
      (fresh (startedWith (qubitPar L .none true) (embed none ![0, 1])).cfg [1, 2, 3] [[1, 2], [3, 4], [5, 6]])).1 = .ok δ ∧
    δ ≤ 2 * c := by
  obtain ⟨L, -, -, hE, -⟩ := Solver.lapack_exists (Fin 2)
  have ha := qubitPar_amps L .none true [[1, 2], [3, 4], [5, 6]] rfl (by simp)
  obtain ⟨c, δ, h1, h2, -, h3⟩ := c118_state (qubitPar L .none true) [1, 2, 3] cl none 1 false false (Ex117.system hE [] (by simp)) rfl
    ![0, 1] (by
      show ∑ i : Fin 2, ‖(![0, 1] : Fin 2 → ℂ) i‖ ^ 2 = 1
      simp) [[1, 2], [3, 4], [5, 6]]
  refine ⟨L, c, δ, h1 _ (ready_fresh _ _ _ _ ha), h2 _ (ready_fresh _ _ _ _ ha), h3.trans (le_of_eq ?_)⟩
  show ((Fintype.card (Fin 2) : ℕ) : ℝ) * c = 2 * c
  simp

/-- `c118_leakage` applies: one state of a qubit. -/
example (cl : Closest) : ∃ (L : Lapack (Fin 2)) (c leak : ℝ),
    (costOn (opCosts cl (some [1]) 1 false) (qubitPar L .none true).cfg
      (fresh (qubitPar L .none true).cfg [1, 2, 3] [[1, 2], [3, 4], [5, 6]])).1 = .ok c ∧
    (costOn (leakCosts [1]) (qubitPar L .none true).cfg
      (fresh (qubitPar L .none true).cfg [1, 2, 3] [[1, 2], [3, 4], [5, 6]])).1 = .ok leak ∧ leak ≤ c := by
  obtain ⟨L, -, -, hE, -⟩ := Solver.lapack_exists (Fin 2)
  have ha := qubitPar_amps L .none true [[1, 2], [3, 4], [5, 6]] rfl (by simp)
  have hs := qubit_system hE
  obtain ⟨c, leak, h1, h2, -, h3⟩ := c118_leakage (qubitPar L .none true) [1, 2, 3] cl [1] 1
    { valid := hs.valid, stable := hs.stable, method := hs.method, expm := hs.expm, times := hs.times, drift := hs.drift, ctrl := hs.ctrl,
      noise := by simp, init := hs.init, states := ⟨(0 : Fin 1)⟩, distinct := by rintro l ⟨⟩; simp, plain := Or.inl rfl,
      target := Or.inr (one_mem _) } [[1, 2], [3, 4], [5, 6]]
  exact ⟨L, c, leak, h1 _ (ready_fresh _ _ _ _ ha), h2 _ (ready_fresh _ _ _ _ ha), h3⟩

end Verif.Cost
