import Verif.Cost.SupRange
import Verif.Cost.Worst

/-!
# C150: a gate of an open system of small infidelity is good for every initial state

`OperationInfidelity` (cost_functions.py:1171-1275, super operators 1256-1259) and `LeakageLiouville` (cost_functions.py:1851-1865) on a
`LindbladSolver`.
-/

namespace Verif.Cost
open Verif Verif.Operator Verif.Solver Matrix
open scoped Kronecker ComplexOrder

section
variable {n : Type} [Fintype n] [DecidableEq n]

/-! ## Specification -/

/-- Specification: the super operator `P` takes the pure state `ψ` to the density matrix `ρ`, which agrees with the pure state `φ` up to
the infidelity `δ = 1 - ⟨φ|ρ|φ⟩`. -/
def StateError (P : Sup n) (ψ φ : Matrix n (Fin 1) ℂ) (δ : ℝ) : Prop :=
  ∃ ρ : Matrix n n ℂ, ρ.PosSemidef ∧ ρ.trace = 1 ∧ P *ᵥ Matrix.vec (ψ * ψᴴ) = Matrix.vec ρ ∧ δ = 1 - ((φᴴ * ρ * φ) 0 0).re

/-! ## Lemmas -/

theorem embed_eq (cs : Option (List n)) (ψ : CompIdx cs → ℂ) : embed cs ψ = embedding cs * Matrix.of fun a (_ : Fin 1) => ψ a := by
  ext i j
  rw [Matrix.mul_apply]
  unfold embed embedding
  refine Finset.sum_congr rfl fun a _ => ?_
  by_cases h : sel cs a = i
  · simp [h]
  · simp [h, Ne.symm h]

theorem embed_unit (cs : Option (List n)) (hcs : ∀ l, cs = some l → l.Nodup) (ψ : CompIdx cs → ℂ) (hψ : ∑ a, ‖ψ a‖ ^ 2 = 1) :
    (embed cs ψ)ᴴ * embed cs ψ = 1 := by
  have h := embed_norm cs hcs ψ
  rw [hψ] at h
  ext i j
  rw [Subsingleton.elim i 0, Subsingleton.elim j 0, Matrix.mul_apply, Matrix.one_apply_eq]
  have h' := congrArg (fun x : ℝ => (x : ℂ)) h
  rw [sum_sq_dot, Complex.ofReal_one] at h'
  exact h'

omit [DecidableEq n] in
/-- A pure state is a density matrix. -/
theorem pure_density (ψ : Matrix n (Fin 1) ℂ) (h : ψᴴ * ψ = 1) : (ψ * ψᴴ).PosSemidef ∧ (ψ * ψᴴ).trace = 1 := by
  refine ⟨Matrix.posSemidef_self_mul_conjTranspose ψ, ?_⟩
  rw [Matrix.trace_mul_comm, h, Matrix.trace_one]
  simp

omit [DecidableEq n] in
theorem pure_kraus {m : Nat} (K : Fin m → Matrix n n ℂ) (ψ φ : Matrix n (Fin 1) ℂ) :
    ((φᴴ * (∑ r, K r * (ψ * ψᴴ) * (K r)ᴴ) * φ) 0 0).re = ∑ r, ‖(φᴴ * K r * ψ) 0 0‖ ^ 2 := by
  rw [Matrix.mul_sum, Matrix.sum_mul, Matrix.sum_apply, Complex.re_sum]
  refine Finset.sum_congr rfl fun r _ => ?_
  have e : φᴴ * (K r * (ψ * ψᴴ) * (K r)ᴴ) * φ = (φᴴ * K r * ψ) * (φᴴ * K r * ψ)ᴴ := by
    simp only [Matrix.conjTranspose_mul, Matrix.conjTranspose_conjTranspose, Matrix.mul_assoc]
  rw [e, Matrix.mul_apply, Fin.sum_univ_one, Matrix.conjTranspose_apply, ← Complex.normSq_eq_norm_sq, Complex.normSq_apply]
  simp

/-- The fidelity of a state in terms of Kraus operators, with the overlap of the basis state on the computational subspace. -/
theorem pure_overlap (cl : Closest) (cs : Option (List n)) (T : Matrix (CompIdx cs) (CompIdx cs) ℂ) (K : Matrix n n ℂ) (ψ : CompIdx cs → ℂ) :
    ((embed cs (T *ᵥ ψ))ᴴ * K * embed cs ψ) 0 0 = star ψ ⬝ᵥ ((Tᴴ * truncTo cl cs false K) *ᵥ ψ) := by
  have e1 : (Matrix.of fun a (_ : Fin 1) => (T *ᵥ ψ) a) = T * Matrix.of fun a (_ : Fin 1) => ψ a := by
    ext a j
    rfl
  rw [embed_eq, embed_eq, e1, ← embedding_trunc]
  have e2 : (embedding cs * (T * Matrix.of fun a (_ : Fin 1) => ψ a))ᴴ * K * (embedding cs * Matrix.of fun a (_ : Fin 1) => ψ a) =
      (Matrix.of fun a (_ : Fin 1) => ψ a)ᴴ * ((Tᴴ * ((embedding cs)ᴴ * (K * embedding cs))) * Matrix.of fun a (_ : Fin 1) => ψ a) := by
    simp only [Matrix.conjTranspose_mul, Matrix.mul_assoc]
  rw [e2]
  rfl

/-- The mean over an orthonormal basis of the infidelities of the states is at most the infidelity of the channel. -/
theorem basis_le (cs : Option (List n)) (hcs : ∀ l, cs = some l → l.Nodup) (hd : 0 < Fintype.card (CompIdx cs))
    (T B : Matrix (CompIdx cs) (CompIdx cs) ℂ) (hB : B ∈ Matrix.unitaryGroup (CompIdx cs) ℂ) {m : Nat} (K : Fin m → Matrix n n ℂ) :
    (∑ a, (1 - ∑ r, ‖((embed cs (T *ᵥ fun i => B i a))ᴴ * K r * embed cs fun i => B i a) 0 0‖ ^ 2)) / dim cs ≤
      1 - entFidSup cs T (∑ r, Solver.unitarySup (K r)) := by
  have hd0 : 0 < dim cs := by unfold dim; exact_mod_cast hd
  have h1 : ∀ r, ‖(Tᴴ * truncTo (fun _ => 0) cs false (K r)).trace‖ ^ 2 ≤
      dim cs * ∑ a, ‖((embed cs (T *ᵥ fun i => B i a))ᴴ * K r * embed cs fun i => B i a) 0 0‖ ^ 2 := by
    intro r
    have := trace_basis (Tᴴ * truncTo (fun _ => 0) cs false (K r)) B hB
    refine this.trans (le_of_eq ?_)
    unfold dim
    congr 1
    refine Finset.sum_congr rfl fun a _ => ?_
    rw [pure_overlap (fun _ => 0), diag_basis]
  have h2 : entFidSup cs T (∑ r, Solver.unitarySup (K r)) =
      (∑ r, ‖(Tᴴ * truncTo (fun _ => 0) cs false (K r)).trace‖ ^ 2) / dim cs / dim cs := by
    rw [entFidSup_sum, Finset.sum_congr rfl fun r _ => c46_super_operator (fun _ => 0) cs hcs T (K r), Finset.sum_div, Finset.sum_div]
    rfl
  have h3 : entFidSup cs T (∑ r, Solver.unitarySup (K r)) ≤
      (∑ a, ∑ r, ‖((embed cs (T *ᵥ fun i => B i a))ᴴ * K r * embed cs fun i => B i a) 0 0‖ ^ 2) / dim cs := by
    rw [h2, Finset.sum_comm]
    refine (div_le_div_iff_of_pos_right hd0).mpr ?_
    rw [div_le_iff₀ hd0, mul_comm, Finset.mul_sum]
    exact Finset.sum_le_sum fun r _ => h1 r
  rw [Finset.sum_sub_distrib, sub_div]
  have : (∑ _a : CompIdx cs, (1 : ℝ)) / dim cs = 1 := by
    rw [Finset.sum_const, Finset.card_univ, nsmul_eq_mul, mul_one]
    exact div_self hd0.ne'
  rw [this]
  linarith

/-- The overlap of a normalised vector with a density matrix is at most one. -/
theorem overlap_density (ρ : Matrix n n ℂ) (hρ : ρ.PosSemidef) (ht : ρ.trace = 1) (φ : Matrix n (Fin 1) ℂ) (hφ : φᴴ * φ = 1) :
    ((φᴴ * ρ * φ) 0 0).re ≤ 1 := by
  have e : (1 - φ * φᴴ) = (1 - φ * φᴴ)ᴴ * (1 - φ * φᴴ) := by
    have h1 : φ * φᴴ * (φ * φᴴ) = φ * φᴴ := by
      rw [Matrix.mul_assoc, ← Matrix.mul_assoc φᴴ, hφ, Matrix.one_mul]
    rw [Matrix.conjTranspose_sub, Matrix.conjTranspose_one, Matrix.conjTranspose_mul, Matrix.conjTranspose_conjTranspose,
      Matrix.sub_mul, Matrix.mul_sub, Matrix.mul_sub, h1]
    simp
  have h2 : 0 ≤ ((1 - φ * φᴴ) * ρ).trace.re := by
    rw [e, Matrix.mul_assoc, Matrix.trace_mul_comm]
    exact (Complex.le_def.mp (hρ.mul_mul_conjTranspose_same _).trace_nonneg).1
  rw [Matrix.sub_mul, Matrix.one_mul, Matrix.trace_sub, ht] at h2
  have h3 : (φ * φᴴ * ρ).trace = (φᴴ * ρ * φ) 0 0 := by
    rw [Matrix.mul_assoc, Matrix.trace_mul_comm]
    simp [Matrix.trace]
  rw [h3] at h2
  simpa using h2

/-- The final super operator in Kraus form. -/
theorem open_last (p : LPar n) (Ls : List (Matrix n n ℂ)) (times : List ℝ) (u x : Pulse)
    (hL : p.Lindblads Ls times u x) (hne : times ≠ []) (hdr : p.drift.length = times.length)
    (hu : u.length = times.length) (hrow : ∀ row ∈ u, row.length = p.ctrl.length)
    (hdH : ∀ H ∈ p.drift, H.IsHermitian) (hcH : ∀ H ∈ p.ctrl, H.IsHermitian)
    (hm : p.method = .frechet) (hE : p.L.ExpmOk) (hi : p.init = 1) (hτ : ∀ τ ∈ times, 0 ≤ τ)
    (hw : ∀ f, p.diss.prefactor = some f → ∀ row ∈ f u x, ∀ w ∈ row, 0 ≤ w) :
    ∃ (f : List (Sup n)) (m : Nat) (K : Fin m → Matrix n n ℂ), p.fwd times u x = .ok f ∧
      f.getLast? = some (∑ r, Solver.unitarySup (K r)) ∧ ∑ r, (K r)ᴴ * K r = 1 := by
  obtain ⟨f, h1, h2, h3⟩ := c96_kraus p Ls times u x hL hne hdr hu hrow hdH hcH hm hE hi hτ hw
  have hf : f ≠ [] := fun h => by simp [h] at h2
  obtain ⟨m, K, hK, hP⟩ := h3 _ (List.getLast_mem hf)
  have hsup : f.getLast hf = ∑ r, Solver.unitarySup (K r) := by
    refine matrix_ext_mulVec fun ρ => ?_
    rw [hP, kraus_action]
  exact ⟨f, m, K, h1, by rw [← hsup]; exact List.getLast?_eq_some_getLast hf, hK⟩

theorem kraus_density {m : Nat} (K : Fin m → Matrix n n ℂ) (hK : ∑ r, (K r)ᴴ * K r = 1) (ρ : Matrix n n ℂ) (hρ : ρ.PosSemidef)
    (ht : ρ.trace = 1) : (∑ r, K r * ρ * (K r)ᴴ).PosSemidef ∧ (∑ r, K r * ρ * (K r)ᴴ).trace = 1 := by
  refine ⟨Matrix.posSemidef_sum _ fun r _ => hρ.mul_mul_conjTranspose_same (K r), ?_⟩
  have e : ∀ r, (K r * ρ * (K r)ᴴ).trace = ((K r)ᴴ * K r * ρ).trace := by
    intro r
    rw [Matrix.trace_mul_comm, Matrix.mul_assoc]
  rw [Matrix.trace_sum, Finset.sum_congr rfl fun r _ => e r, ← Matrix.trace_sum, ← Matrix.sum_mul, hK, Matrix.one_mul, ht]

/-- The fully mixed computational state is a density matrix. -/
theorem leak_mixed (l : List n) (hl : l.Nodup) (hne : l ≠ []) :
    (Matrix.diagonal fun i => if i ∈ l then 1 / (l.length : ℂ) else 0).PosSemidef ∧
      (Matrix.diagonal fun i => if i ∈ l then 1 / (l.length : ℂ) else 0).trace = 1 := by
  have hd : (0 : ℝ) < l.length := by exact_mod_cast List.length_pos_iff.mpr hne
  constructor
  · refine Matrix.PosSemidef.diagonal fun i => ?_
    by_cases h : i ∈ l
    · simp only [h, if_true]
      have : (1 / (l.length : ℂ)) = ((1 / (l.length : ℝ) : ℝ) : ℂ) := by simp
      rw [Pi.zero_apply, this]
      exact_mod_cast (by positivity : (0 : ℝ) ≤ 1 / l.length)
    · simp [h]
  · have e := sum_mem_list l hl fun _ => (1 / (l.length : ℝ))
    have e' : ∑ a : Fin l.length, (1 / (l.length : ℝ)) = 1 := by simp [hd.ne']
    rw [Matrix.trace_diagonal]
    rw [e'] at e
    have := congrArg (fun x : ℝ => (x : ℂ)) e
    simpa [apply_ite] using this

/-! ## The property -/

/-- **C150** For every orthonormal basis of the computational subspace (the columns of `B`) the mean of the infidelities of the basis
states is at most the infidelity of the gate, also with dissipation. -/
theorem c150_basis (p : LPar n) (Ls : List (Matrix n n ℂ)) (times : List ℝ) (u x : Pulse)
    (hL : p.Lindblads Ls times u x) (hne : times ≠ []) (hdr : p.drift.length = times.length)
    (hu : u.length = times.length) (hrow : ∀ row ∈ u, row.length = p.ctrl.length)
    (hdH : ∀ H ∈ p.drift, H.IsHermitian) (hcH : ∀ H ∈ p.ctrl, H.IsHermitian)
    (hm : p.method = .frechet) (hE : p.L.ExpmOk) (hi : p.init = 1) (hτ : ∀ τ ∈ times, 0 ≤ τ)
    (hw : ∀ f, p.diss.prefactor = some f → ∀ row ∈ f u x, ∀ w ∈ row, 0 ≤ w)
    (cs : Option (List n)) (hcs : ∀ l, cs = some l → l.Nodup) (hd : 0 < Fintype.card (CompIdx cs))
    (T : Matrix (CompIdx cs) (CompIdx cs) ℂ) (hT : T ∈ Matrix.unitaryGroup (CompIdx cs) ℂ)
    (B : Matrix (CompIdx cs) (CompIdx cs) ℂ) (hB : B ∈ Matrix.unitaryGroup (CompIdx cs) ℂ) :
    ∃ (f : List (Sup n)) (P : Sup n) (c : ℝ) (δ : CompIdx cs → ℝ), p.fwd times u x = .ok f ∧ f.getLast? = some P ∧
      opCostsSup cs T f = .ok c ∧
      (∀ a, StateError P (embed cs fun i => B i a) (embed cs (T *ᵥ fun i => B i a)) (δ a)) ∧
      (∀ a, 0 ≤ δ a) ∧ (∑ a, δ a) / dim cs ≤ c := by
  obtain ⟨f, m, K, h1, h2, hK⟩ := open_last p Ls times u x hL hne hdr hu hrow hdH hcH hm hE hi hτ hw
  have hnorm : ∀ a, ∑ i, ‖B i a‖ ^ 2 = 1 := norm_column hB
  have hψ : ∀ a, (embed cs fun i => B i a)ᴴ * (embed cs fun i => B i a) = 1 := fun a => embed_unit cs hcs _ (hnorm a)
  have hφ : ∀ a, (embed cs (T *ᵥ fun i => B i a))ᴴ * (embed cs (T *ᵥ fun i => B i a)) = 1 := fun a =>
    embed_unit cs hcs _ ((sum_sq_unitary hT _).trans (hnorm a))
  refine ⟨f, _, 1 - entFidSup cs T (∑ r, Solver.unitarySup (K r)), fun a => 1 - _, h1, h2, ?_, fun a =>
    ⟨∑ r, K r * ((embed cs fun i => B i a) * (embed cs fun i => B i a)ᴴ) * (K r)ᴴ, ?_, ?_, kraus_action K _, rfl⟩, fun a => ?_, ?_⟩
  · unfold opCostsSup
    rw [last_ok h2]
    rfl
  · exact (kraus_density K hK _ (pure_density _ (hψ a)).1 (pure_density _ (hψ a)).2).1
  · exact (kraus_density K hK _ (pure_density _ (hψ a)).1 (pure_density _ (hψ a)).2).2
  · have := overlap_density _ (kraus_density K hK _ (pure_density _ (hψ a)).1 (pure_density _ (hψ a)).2).1
      (kraus_density K hK _ (pure_density _ (hψ a)).1 (pure_density _ (hψ a)).2).2 _ (hφ a)
    linarith
  · simp only [pure_kraus]
    exact basis_le cs hcs hd T B hB K

/-- **C150** Every computational state ends, up to the dimension times the infidelity of the gate, in the intended state. -/
theorem c150_state (p : LPar n) (Ls : List (Matrix n n ℂ)) (times : List ℝ) (u x : Pulse)
    (hL : p.Lindblads Ls times u x) (hne : times ≠ []) (hdr : p.drift.length = times.length)
    (hu : u.length = times.length) (hrow : ∀ row ∈ u, row.length = p.ctrl.length)
    (hdH : ∀ H ∈ p.drift, H.IsHermitian) (hcH : ∀ H ∈ p.ctrl, H.IsHermitian)
    (hm : p.method = .frechet) (hE : p.L.ExpmOk) (hi : p.init = 1) (hτ : ∀ τ ∈ times, 0 ≤ τ)
    (hw : ∀ f, p.diss.prefactor = some f → ∀ row ∈ f u x, ∀ w ∈ row, 0 ≤ w)
    (cs : Option (List n)) (hcs : ∀ l, cs = some l → l.Nodup)
    (T : Matrix (CompIdx cs) (CompIdx cs) ℂ) (hT : T ∈ Matrix.unitaryGroup (CompIdx cs) ℂ)
    (ψ : CompIdx cs → ℂ) (hψ : ∑ i, ‖ψ i‖ ^ 2 = 1) :
    ∃ (f : List (Sup n)) (P : Sup n) (c δ : ℝ), p.fwd times u x = .ok f ∧ f.getLast? = some P ∧ opCostsSup cs T f = .ok c ∧
      StateError P (embed cs ψ) (embed cs (T *ᵥ ψ)) δ ∧ 0 ≤ δ ∧ δ ≤ dim cs * c := by
  have hex : Nonempty (CompIdx cs) := by
    by_contra h
    rw [not_nonempty_iff] at h
    simp at hψ
  obtain ⟨i₀⟩ := hex
  have hd : 0 < Fintype.card (CompIdx cs) := Fintype.card_pos_iff.mpr ⟨i₀⟩
  obtain ⟨B, hB, e⟩ := extend_unitary ψ hψ i₀
  obtain ⟨f, P, c, δ, h1, h2, h3, h4, h5, h6⟩ :=
    c150_basis p Ls times u x hL hne hdr hu hrow hdH hcH hm hE hi hτ hw cs hcs hd T hT B hB
  have e' : (fun i => B i i₀) = ψ := funext e
  have h4' := h4 i₀
  rw [e'] at h4'
  refine ⟨f, P, c, δ i₀, h1, h2, h3, h4', h5 i₀, ?_⟩
  have hd0 : 0 < dim cs := by unfold dim; exact_mod_cast hd
  rw [div_le_iff₀ hd0, mul_comm] at h6
  exact (Finset.single_le_sum (fun a _ => h5 a) (Finset.mem_univ i₀)).trans h6

/-- **C150** The population which leaves the computational subspace is at most the infidelity of the gate, also with dissipation. -/
theorem c150_leakage (p : LPar n) (Ls : List (Matrix n n ℂ)) (times : List ℝ) (u x : Pulse)
    (hL : p.Lindblads Ls times u x) (hne : times ≠ []) (hdr : p.drift.length = times.length)
    (hu : u.length = times.length) (hrow : ∀ row ∈ u, row.length = p.ctrl.length)
    (hdH : ∀ H ∈ p.drift, H.IsHermitian) (hcH : ∀ H ∈ p.ctrl, H.IsHermitian)
    (hm : p.method = .frechet) (hE : p.L.ExpmOk) (hi : p.init = 1) (hτ : ∀ τ ∈ times, 0 ≤ τ)
    (hw : ∀ f, p.diss.prefactor = some f → ∀ row ∈ f u x, ∀ w ∈ row, 0 ≤ w)
    (l : List n) (hl : l.Nodup) (hlne : l ≠ []) (T : Matrix (Fin l.length) (Fin l.length) ℂ) (hT : Tᴴ * T = 1) :
    ∃ (f : List (Sup n)) (c leak : ℝ), p.fwd times u x = .ok f ∧ opCostsSup (some l) T f = .ok c ∧
      leakLiouvilleSup l f = .ok leak ∧ 0 ≤ leak ∧ leak ≤ c := by
  obtain ⟨f, m, K, h1, h2, hK⟩ := open_last p Ls times u x hL hne hdr hu hrow hdH hcH hm hE hi hτ hw
  obtain ⟨f', P', ρ', leak, g1, g2, g3, g4, g5, g6, g7⟩ :=
    c97_leakage p Ls times u x hL hne hdr hu hrow hdH hcH hm hE hi hτ hw l hl hlne
  rw [h1] at g1
  cases g1
  rw [h2] at g2
  cases g2
  have hcs : ∀ l', some l = some l' → l'.Nodup := fun l' h => by cases h; exact hl
  have hlen : (0 : ℝ) < l.length := by exact_mod_cast List.length_pos_iff.mpr hlne
  have hdim : dim (some l) = l.length := by exact congrArg (fun k : Nat => (k : ℝ)) (Fintype.card_fin l.length)
  rw [kraus_action, Matrix.vec_inj] at g4
  have hin : ∀ i, (ρ' i i).re = ∑ r, ∑ b : Fin l.length, ‖K r i (l.get b)‖ ^ 2 / l.length := by
    intro i
    rw [← g4, Matrix.sum_apply, Complex.re_sum]
    refine Finset.sum_congr rfl fun r _ => ?_
    rw [← sum_mem_list l hl fun j => ‖K r i j‖ ^ 2 / l.length, Matrix.mul_apply, Complex.re_sum]
    refine Finset.sum_congr rfl fun j _ => ?_
    rw [Matrix.mul_diagonal, Matrix.conjTranspose_apply]
    by_cases h : j ∈ l
    · rw [if_pos h, if_pos h, mul_right_comm, ← Complex.normSq_eq_norm_sq]
      have e : K r i j * star (K r i j) = (Complex.normSq (K r i j) : ℂ) := Complex.mul_conj _
      rw [e, one_div, ← Complex.ofReal_natCast, ← Complex.ofReal_inv, ← Complex.ofReal_mul, Complex.ofReal_re, div_eq_mul_inv]
    · rw [if_neg h, if_neg h]
      simp
  have htr : ∑ i, (ρ' i i).re = 1 := by
    have hdens := (kraus_density K hK _ (leak_mixed l hl hlne).1 (leak_mixed l hl hlne).2).2
    rw [g4] at hdens
    have := congrArg Complex.re hdens
    rwa [Matrix.trace, Complex.re_sum, Complex.one_re] at this
  have hleak : leak = 1 - ∑ r, ∑ a : Fin l.length, ∑ b : Fin l.length, ‖K r (l.get a) (l.get b)‖ ^ 2 / l.length := by
    rw [g5, ← htr, Finset.sum_comm, ← Finset.sum_congr rfl fun (a : Fin l.length) _ => hin (l.get a),
      ← sum_mem_list l hl fun i => (ρ' i i).re, ← Finset.sum_sub_distrib]
    refine Finset.sum_congr rfl fun i _ => ?_
    by_cases h : i ∈ l <;> simp [h]
  have hfid : ∀ r, entFidSup (some l) T (Solver.unitarySup (K r)) ≤
      ∑ a : Fin l.length, ∑ b : Fin l.length, ‖K r (l.get a) (l.get b)‖ ^ 2 / l.length := by
    intro r
    rw [c46_super_operator (fun _ => 0) (some l) hcs T (K r)]
    unfold entFid
    rw [hdim, ← Finset.sum_congr rfl fun (a : Fin l.length) _ => Finset.sum_div _ _ _, ← Finset.sum_div]
    refine (div_le_div_iff_of_pos_right hlen).mpr ?_
    have h3 := sumSq_multiple ((K r).submatrix l.get l.get) T hT (by simpa using List.length_pos_iff.mpr hlne)
    have h4 : 0 ≤ (((K r).submatrix l.get l.get)ᴴ * (K r).submatrix l.get l.get).trace.re -
        ‖(Tᴴ * (K r).submatrix l.get l.get).trace‖ ^ 2 / Fintype.card (Fin l.length) := by
      rw [← h3]
      positivity
    have h5 : (((K r).submatrix l.get l.get)ᴴ * (K r).submatrix l.get l.get).trace.re =
        ∑ a : Fin l.length, ∑ b : Fin l.length, ‖K r (l.get a) (l.get b)‖ ^ 2 := by
      rw [Matrix.trace, Complex.re_sum, Finset.sum_comm]
      refine Finset.sum_congr rfl fun a _ => ?_
      rw [Matrix.diag_apply, Matrix.mul_apply, Complex.re_sum]
      refine Finset.sum_congr rfl fun i _ => ?_
      rw [Matrix.conjTranspose_apply, ← Complex.normSq_eq_norm_sq, Complex.normSq_apply]
      simp
    rw [h5, Fintype.card_fin] at h4
    exact sub_nonneg.mp h4
  refine ⟨f, 1 - entFidSup (some l) T (∑ r, Solver.unitarySup (K r)), leak, h1, ?_, g3, g6, ?_⟩
  · unfold opCostsSup
    rw [last_ok h2]
    rfl
  · rw [hleak]
    exact sub_le_sub_left ((entFidSup_sum (some l) T fun r => Solver.unitarySup (K r)).trans_le
      (Finset.sum_le_sum fun r _ => hfid r)) 1

/-! ## Concrete cases -/

/-- The decaying qubit: the superposition of both states with the intended identity, and the leakage out of one state. -/
example : ∃ (L : Lapack (Fin 2 × Fin 2)) (f : List (Sup (Fin 2))) (P : Sup (Fin 2)) (a b leak δ : ℝ),
    (decayPar L (some decayPre) none).fwd [1, 2, 3] [[1, 2], [3, 4], [5, 6]] [] = .ok f ∧ f.getLast? = some P ∧
    opCostsSup (n := Fin 2) none 1 f = .ok a ∧
    StateError P (embed none (fun i : Fin 2 => ![3 / 5, 4 / 5] i)) (embed none (fun i : Fin 2 => ![3 / 5, 4 / 5] i)) δ ∧
    0 ≤ δ ∧ δ ≤ 2 * a ∧ opCostsSup (some [1]) 1 f = .ok b ∧ leakLiouvilleSup [1] f = .ok leak ∧ leak ≤ b := by
  obtain ⟨L, -, -, hE, -⟩ := lapack_exists (Fin 2 × Fin 2)
  have hL : (decayPar L (some decayPre) none).Lindblads [!![0, 1; 0, 0], !![1, 0; 0, -1]] [1, 2, 3] [[1, 2], [3, 4], [5, 6]] [] :=
    ⟨rfl, rfl, by simp, fun f hf => by
      cases hf
      exact ⟨rfl, fun row hrow => by simp only [decayPre, List.mem_map] at hrow; obtain ⟨t, -, rfl⟩ := hrow; rfl⟩⟩
  obtain ⟨f, P, a, δ, h1, h2, h3, h4, h5, h6⟩ := c150_state _ _ _ _ _ hL (by simp) rfl rfl (by simp [decayPar]) decay_drift decay_ctrl rfl hE
    rfl (by simp) decayPre_nonneg (none : Option (List (Fin 2))) (by simp) 1 (one_mem _) (fun i : Fin 2 => ![3 / 5, 4 / 5] i)
    ((Fin.sum_univ_two (fun i : Fin 2 => ‖(![3 / 5, 4 / 5] i : ℂ)‖ ^ 2)).trans (by simp; norm_num))
  obtain ⟨f', b, leak, g1, g2, g3, -, g4⟩ := c150_leakage _ _ _ _ _ hL (by simp) rfl rfl (by simp [decayPar]) decay_drift decay_ctrl rfl hE
    rfl (by simp) decayPre_nonneg [1] (by simp) (by simp) 1 (by simp)
  rw [h1] at g1
  cases g1
  have hdim : dim (none : Option (List (Fin 2))) = 2 := by
    have : dim (none : Option (List (Fin 2))) = (Fintype.card (Fin 2) : ℝ) := rfl
    rw [this]
    simp
  rw [hdim] at h6
  have e : ∀ v : CompIdx (none : Option (List (Fin 2))) → ℂ, StateError P (embed none v) (embed none (1 *ᵥ v)) δ →
      StateError P (embed none v) (embed none v) δ := fun v h => by rwa [Matrix.one_mulVec] at h
  exact ⟨L, f, P, a, b, leak, δ, h1, h2, h3, e _ h4, h5, h6, g2, g3, g4⟩

end
end Verif.Cost
