import Verif.Py
import Mathlib.LinearAlgebra.UnitaryGroup
import Mathlib.LinearAlgebra.Matrix.Notation
import Mathlib.LinearAlgebra.Matrix.Trace
import Mathlib.Analysis.Complex.Basic
import Mathlib.Tactic.FinCases
import Mathlib.Tactic.LinearCombination
import Mathlib.Tactic.NormNum

/-!
# C108: evolution on the Bloch sphere (plotting.py)

The drawing is replaced by the points handed to `Bloch.add_points`; QuTiP's `expect` is modelled by its documented value.
-/

namespace Verif.Data
open Verif Matrix

/-! ## Model -/

/-- `qt.sigmax()`, `qt.sigmay()`, `qt.sigmaz()`. -/
noncomputable def pauli : Fin 3 → Matrix (Fin 2) (Fin 2) ℂ := ![!![0, 1; 1, 0], !![0, -Complex.I; Complex.I, 0], !![1, 0; 0, -1]]

/-- An initial state: a ket or a density matrix. -/
inductive QState (d : Nat) where
  | ket (ψ : Matrix (Fin d) (Fin 1) ℂ)
  | density (ρ : Matrix (Fin d) (Fin d) ℂ)

/-- `prop * initial_state`, plotting.py:113: a matrix product in both cases. -/
def QState.apply {d : Nat} (U : Matrix (Fin d) (Fin d) ℂ) : QState d → QState d
  | .ket ψ => .ket (U * ψ)
  | .density ρ => .density (U * ρ)

/-- `qt.expect(oper, state)`: `⟨ψ|A|ψ⟩` for kets, `Tr(A ρ)` for operators. -/
noncomputable def expect {d : Nat} (A : Matrix (Fin d) (Fin d) ℂ) : QState d → ℂ
  | .ket ψ => (ψᴴ * A * ψ) 0 0
  | .density ρ => (A * ρ).trace

/-- The points drawn by `plot_bloch_vector_evolution`, plotting.py:88-125.  IndexError for an empty list, ValueError for other dimensions
than two.  Simplification: the assignment of complex numbers to the array `a` keeps the real parts (numpy warns or raises). -/
noncomputable def blochPoints : {d : Nat} → List (Matrix (Fin d) (Fin d) ℂ) → QState d → Except PyErr (List (Fin 3 → ℝ))
  | _, [], _ => .error .indexError
  | 2, props, s => .ok (props.map fun U k => (expect (pauli k) (s.apply U)).re)
  | _, _, _ => .error .valueError

/-! ## Specification -/

/-- The density matrix with a given Bloch vector. -/
noncomputable def ofBloch (r : Fin 3 → ℝ) : Matrix (Fin 2) (Fin 2) ℂ := (1 / 2 : ℂ) • (1 + ∑ k, (r k : ℂ) • pauli k)

/-! ## C108 -/

theorem ofBloch_eq (r : Fin 3 → ℝ) : 
    ofBloch r = !![(1 + (r 2 : ℂ)) / 2, ((r 0 : ℂ) - Complex.I * r 1) / 2; ((r 0 : ℂ) + Complex.I * r 1) / 2, (1 - (r 2 : ℂ)) / 2] := by
  ext i j
  fin_cases i <;> fin_cases j <;> simp [ofBloch, pauli, Fin.sum_univ_three] <;> ring

theorem ofBloch_injective : Function.Injective ofBloch := by
  intro r s h
  rw [ofBloch_eq, ofBloch_eq] at h
  have h0 := congrFun (congrFun h 0) 0
  have h1 := congrFun (congrFun h 0) 1
  have h2 := congrFun (congrFun h 1) 0
  simp only [of_apply, cons_val', cons_val_zero, cons_val_one, cons_val_fin_one] at h0 h1 h2
  have e0 : (r 0 : ℂ) = s 0 := by linear_combination h1 + h2
  have e1 : (r 1 : ℂ) = s 1 := by linear_combination Complex.I * h1 - Complex.I * h2 + ((r 1 : ℂ) - s 1) * Complex.I_sq
  have e2 : (r 2 : ℂ) = s 2 := by linear_combination 2 * h0
  funext k
  fin_cases k
  · exact_mod_cast e0
  · exact_mod_cast e1
  · exact_mod_cast e2

theorem bloch_point (ψ : Matrix (Fin 2) (Fin 1) ℂ) (hψ : ψᴴ * ψ = 1) :
    ofBloch (fun k => (expect (pauli k) (.ket ψ)).re) = ψ * ψᴴ := by
  have hn := congrFun (congrFun hψ 0) 0
  simp only [mul_apply, Fin.sum_univ_two, conjTranspose_apply, one_apply_eq] at hn
  have hr := congrArg Complex.re hn
  simp at hr
  rw [ofBloch_eq]
  ext i j
  fin_cases i <;> fin_cases j <;> apply Complex.ext <;>
    simp [expect, pauli, mul_apply, Fin.sum_univ_two, conjTranspose_apply] <;> first | linear_combination (-1 / 2 : ℝ) * hr | ring

theorem bloch_unit (r : Fin 3 → ℝ) (ψ : Matrix (Fin 2) (Fin 1) ℂ) (h : ofBloch r = ψ * ψᴴ) : r 0 ^ 2 + r 1 ^ 2 + r 2 ^ 2 = 1 := by
  have hd : (ofBloch r).det = 0 := by
    rw [h, det_fin_two]
    simp [mul_apply]
    ring
  rw [ofBloch_eq, det_fin_two] at hd
  simp only [of_apply, cons_val', cons_val_zero, cons_val_one, cons_val_fin_one] at hd
  have : ((r 0 ^ 2 + r 1 ^ 2 + r 2 ^ 2 : ℝ) : ℂ) = 1 := by
    push_cast
    linear_combination -4 * hd + (r 1 : ℂ) ^ 2 * Complex.I_sq
  exact_mod_cast this

/-- **C108** The points of a normalised initial ket: one for each propagator, on the unit sphere, each the Bloch vector of the evolved
state. -/
theorem c108_kets (props : List (Matrix (Fin 2) (Fin 2) ℂ)) (hne : props ≠ []) (hU : ∀ U ∈ props, U ∈ unitaryGroup (Fin 2) ℂ)
    (ψ : Matrix (Fin 2) (Fin 1) ℂ) (hψ : ψᴴ * ψ = 1) :
    ∃ pts, blochPoints props (.ket ψ) = .ok pts ∧ pts.length = props.length ∧
      ∀ (t : Nat) (U : Matrix (Fin 2) (Fin 2) ℂ), props[t]? = some U →
        ∃ r, pts[t]? = some r ∧ r 0 ^ 2 + r 1 ^ 2 + r 2 ^ 2 = 1 ∧ ofBloch r = U * (ψ * ψᴴ) * Uᴴ := by
  obtain ⟨U₀, l, rfl⟩ := List.exists_cons_of_ne_nil hne
  refine ⟨_, rfl, by simp, fun t U ht => ⟨_, by rw [List.getElem?_map, ht]; rfl, ?_⟩⟩
  have hUu : Uᴴ * U = 1 := mem_unitaryGroup_iff'.mp (hU U (List.mem_of_getElem? ht))
  have hn : (U * ψ)ᴴ * (U * ψ) = 1 := by
    rw [conjTranspose_mul, Matrix.mul_assoc, ← Matrix.mul_assoc Uᴴ, hUu, Matrix.one_mul, hψ]
  have hb := bloch_point (U * ψ) hn
  refine ⟨bloch_unit _ _ hb, ?_⟩
  refine hb.trans ?_
  rw [conjTranspose_mul, Matrix.mul_assoc, Matrix.mul_assoc, Matrix.mul_assoc]

/-- **C108** Two kets are drawn at the same points exactly when they are the same state up to a phase. -/
theorem c108_faithful (props : List (Matrix (Fin 2) (Fin 2) ℂ)) (hne : props ≠ []) (hU : ∀ U ∈ props, U ∈ unitaryGroup (Fin 2) ℂ)
    (ψ φ : Matrix (Fin 2) (Fin 1) ℂ) (hψ : ψᴴ * ψ = 1) (hφ : φᴴ * φ = 1) :
    blochPoints props (.ket ψ) = blochPoints props (.ket φ) ↔ ∃ c : ℂ, ‖c‖ = 1 ∧ φ = c • ψ := by
  obtain ⟨p, hp, -, hp'⟩ := c108_kets props hne hU ψ hψ
  obtain ⟨q, hq, hql, hq'⟩ := c108_kets props hne hU φ hφ
  constructor
  · intro h
    have hpq : p = q := by rw [hp, hq] at h; exact Except.ok.inj h
    obtain ⟨U, l, rfl⟩ := List.exists_cons_of_ne_nil hne
    obtain ⟨r, h1, -, h2⟩ := hp' 0 U rfl
    obtain ⟨s, h3, -, h4⟩ := hq' 0 U rfl
    have hrs : r = s := by rw [hpq, h3] at h1; exact (Option.some.inj h1).symm
    have hUu : Uᴴ * U = 1 := mem_unitaryGroup_iff'.mp (hU U (by simp))
    have e : ψ * ψᴴ = φ * φᴴ := by
      have h5 : U * (ψ * ψᴴ) * Uᴴ = U * (φ * φᴴ) * Uᴴ := by rw [← h2, ← h4, hrs]
      have h6 : Uᴴ * (U * (ψ * ψᴴ) * Uᴴ) * U = Uᴴ * (U * (φ * φᴴ) * Uᴴ) * U := by rw [h5]
      have h7 : ∀ X : Matrix (Fin 2) (Fin 2) ℂ, Uᴴ * (U * X * Uᴴ) * U = X := fun X => by
        rw [Matrix.mul_assoc U, ← Matrix.mul_assoc Uᴴ U, hUu, Matrix.one_mul, Matrix.mul_assoc, hUu, Matrix.mul_one]
      rwa [h7, h7] at h6
    have hc : φ = ((ψᴴ * φ) 0 0) • ψ := by
      have h8 : φ = ψ * (ψᴴ * φ) := by rw [← Matrix.mul_assoc, e, Matrix.mul_assoc, hφ, Matrix.mul_one]
      conv_lhs => rw [h8]
      ext i j
      fin_cases j
      simp [mul_apply, Fin.sum_univ_two]
      ring
    refine ⟨(ψᴴ * φ) 0 0, ?_, hc⟩
    set c := (ψᴴ * φ) 0 0
    have h9 : (star c * c) • (ψᴴ * ψ) = 1 := by
      rw [← hφ, hc, conjTranspose_smul, smul_mul, Matrix.mul_smul, smul_smul]
    rw [hψ] at h9
    have h10 := congrFun (congrFun h9 0) 0
    simp only [Matrix.smul_apply, one_apply_eq, smul_eq_mul, mul_one] at h10
    have h11 := congrArg norm h10
    rw [norm_mul, norm_star, norm_one] at h11
    nlinarith [norm_nonneg c]
  · rintro ⟨c, hc, rfl⟩
    have hcc : star c * c = 1 := by
      rw [Complex.star_def, Complex.conj_mul', hc]; simp
    obtain ⟨U, l, rfl⟩ := List.exists_cons_of_ne_nil hne
    have he : ∀ (V : Matrix (Fin 2) (Fin 2) ℂ) k, expect (pauli k) (.ket (V * (c • ψ))) = expect (pauli k) (.ket (V * ψ)) := by
      intro V k
      simp only [expect]
      rw [Matrix.mul_smul, conjTranspose_smul, smul_mul, smul_mul, Matrix.mul_smul, smul_smul, hcc, one_smul]
    simp only [blochPoints, QState.apply, he]

/-- **C108** Nothing is drawn for an empty list or for other systems than one qubit: IndexError and ValueError. -/
theorem c108_errors {d : Nat} (props : List (Matrix (Fin d) (Fin d) ℂ)) (s : QState d) :
    (props = [] → blochPoints props s = .error .indexError) ∧ (props ≠ [] → d ≠ 2 → blochPoints props s = .error .valueError) := by
  refine ⟨fun h => by subst h; cases d <;> rfl, fun hne hd => ?_⟩
  obtain ⟨U, l, rfl⟩ := List.exists_cons_of_ne_nil hne
  match d, hd with
  | 0, _ => rfl
  | 1, _ => rfl
  | d + 3, _ => rfl

/-- **C108 violated** for initial states given as density matrices: the state is multiplied from the left only.  The propagator -1, which
changes no state, turns the Bloch vector of |0⟩ upside down. -/
theorem c108_violated_density : ∃ (ρ U : Matrix (Fin 2) (Fin 2) ℂ) (r : Fin 3 → ℝ), U ∈ unitaryGroup (Fin 2) ℂ ∧
    ρ = ofBloch ![0, 0, 1] ∧ U * ρ * Uᴴ = ρ ∧ blochPoints [U] (.density ρ) = .ok [r] ∧ r = ![0, 0, -1] := by
  refine ⟨ofBloch ![0, 0, 1], -1, _, ?_, rfl, by simp, rfl, ?_⟩
  · rw [mem_unitaryGroup_iff]; simp
  · rw [ofBloch_eq]
    funext k
    fin_cases k <;> simp [expect, QState.apply, pauli, trace_fin_two]

/-- A spin flip of |0⟩. -/
example : blochPoints [1, !![0, 1; 1, 0]] (.ket !![1; 0]) = .ok [![0, 0, 1], ![0, 0, -1]] := by
  simp only [blochPoints, List.map_cons, List.map_nil, Except.ok.injEq, List.cons.injEq, and_true]
  constructor <;>
  · funext k
    fin_cases k <;> simp [expect, QState.apply, pauli, mul_apply, Fin.sum_univ_two, vecHead, vecTail]

end Verif.Data
