import Verif.Solver.LindbladThms

/-!
# C38: incomplete descriptions of the dissipation

`_calc_diss_sup_op`, solver_algorithms.py:1875-1929.
-/

namespace Verif.Solver
open Verif Verif.Operator Matrix

variable {n : Type} [Fintype n] [DecidableEq n]

/-- **C38** An empty list of Lindblad operators is accepted by the constructor but not by the first evaluation, which raises IndexError. -/
theorem c38_no_operators (p : LPar n) (h1 : p.diss.supOp = none) (h2 : p.diss.lindblad = some []) (times : List ℝ) (u x : Pulse) :
    p.gens times u x = .error .indexError := by
  simp [LPar.gens, calcDiss, constDiss, h1, h2, bind, Except.bind]

theorem weighted_zip (Ls : List (Matrix n n ℂ)) (f : List ℝ) (hL : Ls ≠ []) (hf : f ≠ []) :
    weighted (Ls.map dissOf) f = .ok (wDiss (f.zip Ls)) := by
  cases Ls with
  | nil => exact absurd rfl hL
  | cons L Ls =>
    cases f with
    | nil => exact absurd rfl hf
    | cons a f =>
      simp only [weighted, List.map_cons, foldl_add_eq]
      congr 1
      unfold wDiss
      rw [List.zip_cons_cons, List.map_cons, List.sum_cons]
      congr 2
      rw [List.zipWith_map_left, List.map_zip_eq_zipWith, List.zipWith_comm]
      rfl

/-- **C38** Prefactors and Lindblad operators are paired from the front.  Operators beyond the number of prefactors are left out of the
master equation without an error, as are superfluous prefactors; a time step without prefactors raises IndexError. -/
theorem c38_prefactors (p : LPar n) (Ls : List (Matrix n n ℂ)) (F : Pulse → Pulse → List (List ℝ)) (times : List ℝ) (u x : Pulse)
    (h1 : p.diss.supOp = none) (h2 : p.diss.lindblad = some Ls) (h3 : Ls ≠ []) (h4 : p.diss.prefactor = some F)
    (h5 : (F u x).length = times.length) (hne : times ≠ []) (hd : p.drift.length = times.length)
    (hrow : ∀ row ∈ u, row.length = p.ctrl.length) (hdH : ∀ H ∈ p.drift, H.IsHermitian) (hcH : ∀ H ∈ p.ctrl, H.IsHermitian) :
    ([] ∈ F u x → p.gens times u x = .error .indexError) ∧
    ([] ∉ F u x → ∃ g, p.gens times u x = .ok g ∧ g.length = times.length ∧
      ∀ (t : Nat) (H₀ : Matrix n n ℂ) (row fs : List ℝ), p.drift[t]? = some H₀ → u[t]? = some row → (F u x)[t]? = some fs →
        ∃ G, g[t]? = some G ∧ ∀ ρ : Matrix n n ℂ, G *ᵥ vec ρ = vec (master (hamiltonian H₀ p.ctrl row) (fs.zip Ls) ρ)) := by
  constructor
  · intro hm
    have key : ∀ l : List (List ℝ), [] ∈ l → allOk (l.map (weighted (Ls.map dissOf))) = .error .indexError := by
      intro l hl
      induction l with
      | nil => cases hl
      | cons r l ih =>
        rw [List.map_cons, allOk]
        by_cases hr : r = []
        · subst hr
          cases Ls <;> rfl
        · rw [weighted_zip Ls r h3 hr]
          have := ih (by rcases List.mem_cons.1 hl with h | h; exacts [absurd h.symm hr, h])
          simp only [bind, Except.bind, this]
    unfold LPar.gens calcDiss
    simp only [h1, constDiss_lindblad p.diss Ls h2 h3, h4, key _ hm, bind, Except.bind]
  · intro hm
    have hgl : (schroedGens p.drift p.ctrl u).length = times.length := by rw [schroedGens_length, hd]
    have hgne : schroedGens p.drift p.ctrl u ≠ [] := by
      intro h
      rw [h] at hgl
      exact hne (List.length_eq_zero_iff.mp hgl.symm)
    refine ⟨List.zipWith supGen (schroedGens p.drift p.ctrl u) ((F u x).map fun fs => wDiss (fs.zip Ls)), ?_, by simp [hgl, h5], ?_⟩
    · unfold LPar.gens lindGens calcDiss
      simp only [h1, constDiss_lindblad p.diss Ls h2 h3, h4, bind, Except.bind]
      rw [allOk_map _ _ (fun row => wDiss (row.zip Ls)) fun row hr => weighted_zip Ls row h3 fun h => hm (h ▸ hr)]
      simp only
      rw [if_neg hgne, if_neg (by simp [hgl, h5])]
    · intro t H₀ row fs hH hrow' hfs
      have hG := schroedGens_getElem p.drift p.ctrl u t H₀ row hH hrow' (hrow row (List.mem_of_getElem? hrow'))
      refine ⟨supGen ((-Complex.I) • hamiltonian H₀ p.ctrl row) (wDiss (fs.zip Ls)), ?_, fun ρ => ?_⟩
      · rw [List.getElem?_zipWith, hG]
        simp [hfs]
      · rw [supGen_mulVec _ _ (hamiltonian_isHermitian _ (hdH _ (List.mem_of_getElem? hH)) hcH), wDiss_mulVec, ← vec_add]
        rfl

/-- **C38**, missing operators: an empty list of initial dissipation super operators without prefactors raises IndexError, neither Lindblad
operators nor initial super operators nor a function of super operators TypeError. -/
theorem c38_no_super_operators (p : LPar n) (h1 : p.diss.supOp = none) (h2 : p.diss.lindblad = none) (h3 : p.diss.prefactor = none)
    (times : List ℝ) (u x : Pulse) :
    (p.diss.initial = some [] → p.gens times u x = .error .indexError) ∧
    (p.diss.initial = none → p.gens times u x = .error .typeError) := by
  constructor <;> intro h <;> unfold LPar.gens calcDiss constDiss <;> simp [h1, h2, h3, h] <;> rfl

/-- **C38**, lengths: an empty drift raises IndexError, a number of dissipation super operators different from the number of drift
Hamiltonians AssertionError. -/
theorem c38_lengths (p : LPar n) (F : Pulse → Pulse → List (Sup n)) (h1 : p.diss.supOp = some F) (times : List ℝ) (u x : Pulse) :
    (p.drift = [] → p.gens times u x = .error .indexError) ∧
    (p.drift ≠ [] → (F u x).length ≠ p.drift.length → p.gens times u x = .error .assertionError) ∧
    (p.drift ≠ [] → (F u x).length = p.drift.length → ∃ g, p.gens times u x = .ok g ∧ g.length = p.drift.length) := by
  have hl := schroedGens_length p.drift p.ctrl u
  have hne : p.drift ≠ [] → schroedGens p.drift p.ctrl u ≠ [] := by
    intro h h0
    rw [h0] at hl
    exact h (List.length_eq_zero_iff.mp hl.symm)
  refine ⟨fun h => ?_, fun h h' => ?_, fun h h' => ?_⟩
  · have : schroedGens p.drift p.ctrl u = [] := List.length_eq_zero_iff.mp (by rw [hl, h]; rfl)
    unfold LPar.gens calcDiss lindGens
    simp [h1, this, bind, Except.bind]
  · unfold LPar.gens calcDiss lindGens
    simp [h1, hne h, bind, Except.bind, hl, Ne.symm h']
  · refine ⟨List.zipWith supGen (schroedGens p.drift p.ctrl u) (F u x), ?_, by simp [hl, h']⟩
    unfold LPar.gens calcDiss lindGens
    simp [h1, hne h, bind, Except.bind, hl, h']

/-! ## Examples -/

/-- `c38_no_super_operators` applies. -/
example (L : Lapack (Fin 2 × Fin 2)) (times : List ℝ) (u x : Pulse) :
    ({ decayPar L none none with diss := ⟨some [], none, none, none, none, none⟩ } : LPar (Fin 2)).gens times u x = .error .indexError :=
  (c38_no_super_operators _ rfl rfl rfl times u x).1 rfl

/-- `c38_lengths` applies: two super operators for three time steps. -/
example (L : Lapack (Fin 2 × Fin 2)) (times : List ℝ) (u x : Pulse) (D : Sup (Fin 2)) :
    ({ decayPar L none none with diss := ⟨none, none, none, none, some fun _ _ => [D, D], none⟩ } : LPar (Fin 2)).gens times u x =
      .error .assertionError :=
  (c38_lengths _ _ rfl times u x).2.1 (by simp [decayPar]) (by simp [decayPar])

/-- `c38_no_operators` applies. -/
example (L : Lapack (Fin 2 × Fin 2)) (times : List ℝ) (u x : Pulse) :
    ({ decayPar L none none with diss := ⟨none, some [], none, none, none, none⟩ } : LPar (Fin 2)).gens times u x = .error .indexError :=
  c38_no_operators _ rfl rfl times u x

/-- `c38_prefactors` applies: one prefactor for two operators; the dephasing is left out. -/
example (L : Lapack (Fin 2 × Fin 2)) : ∃ g G,
    (decayPar L (some fun _ _ => List.replicate 3 [7]) none).gens [1, 2, 3] [[1, 2], [3, 4], [5, 6]] [] = .ok g ∧ g[1]? = some G ∧
    ∀ ρ, G *ᵥ vec ρ = vec (master (hamiltonian !![1, 0; 0, -1] (decayPar L none none).ctrl [3, 4]) [(7, !![0, 1; 0, 0])] ρ) := by
  obtain ⟨g, h1, -, h3⟩ := (c38_prefactors (decayPar L (some fun _ _ => List.replicate 3 [7]) none) _ _ [1, 2, 3] [[1, 2], [3, 4], [5, 6]]
    [] rfl rfl (by simp) rfl rfl (by simp) rfl (by simp [decayPar]) decay_drift decay_ctrl).2 (by simp)
  obtain ⟨G, h4, h5⟩ := h3 1 _ _ [7] rfl rfl rfl
  exact ⟨g, G, h1, h4, h5⟩

end Verif.Solver
