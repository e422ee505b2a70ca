import Verif.Cost.Master

/-!
# C167: the spectral method and open systems

`LindbladSolver` (solver_algorithms.py:1635-2142) with `exponential_method='spectral'`: the generator is not normal in general, while
`_exp_diagonalize` (matrix.py:972-1001) uses the adjoint of the matrix of eigenvectors in place of the inverse.
-/

namespace Verif.Cost
open Verif Verif.Operator Verif.Solver Matrix
open scoped ComplexConjugate Matrix.Norms.L2Operator

variable {n : Type} [Fintype n] [DecidableEq n]

/-! ## Specification -/

/-- A matrix with an orthonormal eigenbasis and without repeated eigenvalues. -/
structure SimpleSpectrum {m : Type} [Fintype m] [DecidableEq m] (G : Matrix m m ℂ) : Prop where
  normal : G * Gᴴ = Gᴴ * G
  basis : ∃ (lam : m → ℂ) (V : Matrix m m ℂ), IsUnit V ∧ G * V = V * Matrix.diagonal lam
  simple : ∀ (lam : m → ℂ) (V : Matrix m m ℂ), IsUnit V → G * V = V * Matrix.diagonal lam → Function.Injective lam

/-- A qubit which decays while its splitting is controlled; one time step. -/
noncomputable def decaying (L : Lapack (Fin 2 × Fin 2)) (method : Method) : LPar (Fin 2) :=
  ⟨L, method, false, 1, [0], [!![1, 0; 0, -1]], ⟨none, some [!![0, 1; 0, 0]], none, none, none, none⟩⟩

/-! ## Lemmas -/

theorem propOf_spectral (p : LPar n) (hm : p.method = .spectral) (hs : p.skew = false) (G : Sup n) (σ : ℝ) :
    propOf (p.base []) G σ = expEinsum (p.L.eig G).1 (p.L.eig G).2 (σ : ℂ) := by
  unfold propOf expProp
  have h1 : (p.base []).method = .spectral := hm
  have h2 : (p.base []).calcDeriv = false := rfl
  have h3 : (p.base []).skew = false := hs
  rw [h1, h2, if_neg (by simp), h3]
  rfl

/-- Column of a matrix of eigenvectors. -/
theorem eigen_entry {m : Type} [Fintype m] [DecidableEq m] {A V : Matrix m m ℂ} {lam : m → ℂ} (h : A * V = V * Matrix.diagonal lam) (i k : m) :
    ∑ j, A i j * V j k = lam k * V i k := by
  have := congrFun (congrFun h i) k
  rw [Matrix.mul_apply, Matrix.mul_diagonal] at this
  rw [this, mul_comm]

/-- The generator of the decaying qubit. -/
noncomputable def decayGen (a : ℝ) : Sup (Fin 2) := Matrix.of fun i j =>
  if i = (0, 0) then (if j = (1, 1) then 1 else 0)
  else if i = (1, 1) then (if j = (1, 1) then -1 else 0)
  else if i = (0, 1) then (if j = (0, 1) then -1 / 2 + 2 * (a : ℂ) * Complex.I else 0)
  else (if j = (1, 0) then -1 / 2 - 2 * (a : ℂ) * Complex.I else 0)

theorem decaying_gens (L : Lapack (Fin 2 × Fin 2)) (method : Method) (σ a : ℝ) :
    (decaying L method).gens [σ] [[a]] [] = .ok [decayGen a] := by
  obtain ⟨g, h1, h2, h3⟩ := c38_generator (decaying L method) [!![0, 1; 0, 0]] [σ] [[a]] [] ⟨rfl, rfl, by simp, fun f hf => by cases hf⟩
    (by simp) rfl (by simp [decaying]) (by simp [decaying, Matrix.IsHermitian])
    (by
      intro H hH
      rw [show (decaying L method).ctrl = [!![1, 0; 0, -1]] from rfl, List.mem_singleton] at hH
      subst hH
      ext i j
      fin_cases i <;> fin_cases j <;> simp)
  obtain ⟨G, e1, e2⟩ := h3 0 0 [a] rfl rfl
  have hg : g = [G] := by
    match g, h2, e1 with
    | [x], _, e => simpa using e
  rw [h1, hg]
  congr 2
  refine matrix_ext_mulVec fun ρ => (e2 ρ).trans ?_
  have hT : (!![0, 1; 0, 0] : Matrix (Fin 2) (Fin 2) ℂ)ᴴ = !![0, 0; 1, 0] := by
    ext i j
    fin_cases i <;> fin_cases j <;> simp
  rw [Matrix.eta_fin_two ρ]
  funext ⟨i, j⟩
  fin_cases i <;> fin_cases j <;>
    simp [master, hamiltonian, decaying, weightsAt, hT, Matrix.vec, Matrix.mulVec, dotProduct, decayGen] <;> ring

/-- Its eigenvectors. -/
theorem decayGen_basis (a : ℝ) : ∃ (lam : Fin 2 × Fin 2 → ℂ) (V : Sup (Fin 2)), IsUnit V ∧ decayGen a * V = V * Matrix.diagonal lam := by
  refine ⟨fun i => decayGen a i i, Matrix.of fun i j => if i = j then 1 else if i = (0, 0) ∧ j = (1, 1) then -1 else 0, ?_, ?_⟩
  · refine ⟨⟨_, Matrix.of fun i j => if i = j then 1 else if i = (0, 0) ∧ j = (1, 1) then 1 else 0, ?_, ?_⟩, rfl⟩ <;>
    · ext ⟨i, j⟩ ⟨k, l⟩
      fin_cases i <;> fin_cases j <;> fin_cases k <;> fin_cases l <;> simp [Matrix.mul_apply, Fintype.sum_prod_type, Fin.sum_univ_two]
  · ext ⟨i, j⟩ ⟨k, l⟩
    fin_cases i <;> fin_cases j <;> fin_cases k <;> fin_cases l <;>
      simp [Matrix.mul_apply, Fintype.sum_prod_type, Fin.sum_univ_two, decayGen]

/-- Every eigenvector with an excited part. -/
theorem decayGen_vector {a : ℝ} {lam : ℂ} {v : Fin 2 × Fin 2 → ℂ} (h : ∀ i, ∑ j, decayGen a i j * v j = lam * v i) (h1 : ∑ i, conj (v i) * v i = 1)
    (hd : v (1, 1) ≠ 0) : lam = -1 ∧ v (0, 0) = -v (1, 1) ∧ conj (v (1, 1)) * v (1, 1) = 1 / 2 := by
  have e0 := h (0, 0)
  have e1 := h (0, 1)
  have e2 := h (1, 0)
  have e3 := h (1, 1)
  simp [Fintype.sum_prod_type, Fin.sum_univ_two, decayGen] at e0 e1 e2 e3 h1
  have hl : lam = -1 := by
    apply mul_right_cancel₀ hd
    rw [← e3]
    ring
  subst hl
  have h0 : v (0, 0) = -v (1, 1) := by rw [e0]; ring
  have hb : v (0, 1) = 0 := by
    rcases e1 with h | h
    · have := congrArg Complex.re h
      norm_num at this
    · exact h
  have hc : v (1, 0) = 0 := by
    rcases e2 with h | h
    · have := congrArg Complex.re h
      norm_num at this
    · exact h
  refine ⟨rfl, h0, ?_⟩
  rw [h0, hb, hc] at h1
  simp at h1
  linear_combination h1 / 2

/-! ## Properties -/

/-- **C167** The code violates it: an atom in its ground state, which does not change, is given a negative probability to be excited. -/
theorem c167_violated (L : Lapack (Fin 2 × Fin 2)) (hL : L.EigOk) (σ a : ℝ) :
    LPar.Solves (decaying L .spectral) [!![0, 1; 0, 0]] [σ] [[a]] [] (fun _ => !![1, 0; 0, 0]) ∧
    ∃ f, (decaying L .spectral).fwd [σ] [[a]] [] = .ok f ∧ (stateAt f 1 !![1, 0; 0, 0] 1 1).re ≤ -(Real.exp (-σ) / 2) := by
  constructor
  · refine ⟨continuousOn_const, fun t H₀ row e1 e2 s _ => (hasDerivWithinAt_const _ _ _).congr_deriv ?_⟩
    have hH : H₀ = 0 := by
      have := List.mem_of_getElem? e1
      simpa [decaying] using this
    have hr : row = [a] := by
      have := List.mem_of_getElem? e2
      simpa using this
    subst hH hr
    have hT : (!![0, 1; 0, 0] : Matrix (Fin 2) (Fin 2) ℂ)ᴴ = !![0, 0; 1, 0] := by
      ext i j
      fin_cases i <;> fin_cases j <;> simp
    ext i j
    fin_cases i <;> fin_cases j <;> simp [master, hamiltonian, decaying, weightsAt, hT]
  · obtain ⟨ps, f, -, h2, h3, h4⟩ := (decaying L .spectral).run_ok (by simp [decaying]) [σ] [[a]] [] _ (decaying_gens L _ σ a) rfl
    refine ⟨f, h2, ?_⟩
    obtain ⟨hu, hAV, hn⟩ := hL _ (decayGen_basis a)
    set V := (L.eig (decayGen a)).2 with hV
    set lam := (L.eig (decayGen a)).1 with hlam
    have hf : f.getD 1 0 = expEinsum lam V (σ : ℂ) := by
      have := isForward_unique h4 1 (by rw [h3]; simp)
      rw [List.getD_eq_getElem?_getD, this, h3]
      simp only [List.length_singleton, List.range_one, List.map_cons, List.map_nil, List.take_succ_cons, List.take_zero, List.foldl_cons, List.foldl_nil, Option.getD_some,
        List.getD_cons_zero]
      rw [propOf_spectral (decaying L .spectral) rfl rfl]
      exact Matrix.mul_one _
    have hval : stateAt f 1 !![1, 0; 0, 0] 1 1 = ∑ k, V (1, 1) k * Complex.exp (σ * lam k) * conj (V (0, 0) k) := by
      unfold stateAt
      rw [hf]
      simp [unvec, Matrix.mulVec, dotProduct, Fintype.sum_prod_type, Fin.sum_univ_two, Matrix.vec, expEinsum]
    have hk : ∀ k, V (1, 1) k * Complex.exp (σ * lam k) * conj (V (0, 0) k) = if V (1, 1) k = 0 then 0 else ((-(Real.exp (-σ) / 2) : ℝ) : ℂ) := by
      intro k
      by_cases h0 : V (1, 1) k = 0
      · simp [h0]
      · obtain ⟨e1, e2, e3⟩ := decayGen_vector (a := a) (lam := lam k) (v := fun i => V i k) (fun i => eigen_entry hAV i k) (hn k) h0
        have e2 : V (0, 0) k = -V (1, 1) k := e2
        have e3 : conj (V (1, 1) k) * V (1, 1) k = 1 / 2 := e3
        rw [if_neg h0, e1, e2, map_neg]
        push_cast
        rw [mul_neg_one]
        linear_combination (-Complex.exp (-σ)) * e3
    obtain ⟨k, hk0⟩ : ∃ k, V (1, 1) k ≠ 0 := by
      by_contra h
      have h : ∀ k, V (1, 1) k = 0 := by simpa using h
      obtain ⟨W, hW⟩ := hu.exists_right_inv
      have := congrFun (congrFun hW (1, 1)) (1, 1)
      rw [Matrix.mul_apply] at this
      simp [h] at this
    rw [hval, Finset.sum_congr rfl fun k _ => hk k, Complex.re_sum]
    have hpos := Real.exp_pos (-σ)
    rw [← Finset.add_sum_erase _ _ (Finset.mem_univ k), if_neg hk0, Complex.ofReal_re]
    have : ∑ x ∈ Finset.univ.erase k, (if V (1, 1) x = 0 then (0 : ℂ) else ((-(Real.exp (-σ) / 2) : ℝ) : ℂ)).re ≤ 0 := by
      refine Finset.sum_nonpos fun x _ => ?_
      split
      · simp
      · rw [Complex.ofReal_re]
        linarith
    linarith

/-- **C167**, part that holds: with normal generators without repeated eigenvalues the states are those of every solution of the master
equation. -/
theorem c167_normal_partial (p : LPar n) (Ls : List (Matrix n n ℂ)) (times : List ℝ) (u x : Solver.Pulse)
    (hL : p.Lindblads Ls times u x) (hne : times ≠ []) (hd : p.drift.length = times.length) (hu : u.length = times.length)
    (hrow : ∀ row ∈ u, row.length = p.ctrl.length)
    (hdH : ∀ H ∈ p.drift, H.IsHermitian) (hcH : ∀ H ∈ p.ctrl, H.IsHermitian)
    (hm : p.method = .spectral) (hs : p.skew = false) (hEig : p.L.EigOk)
    (hn : ∀ g, p.gens times u x = .ok g → ∀ G ∈ g, SimpleSpectrum G) (hi : p.init = 1) (hpos : ∀ τ ∈ times, 0 ≤ τ) :
    ∃ f, p.fwd times u x = .ok f ∧ f.length = times.length + 1 ∧ ∀ ρ : ℝ → Matrix n n ℂ, LPar.Solves p Ls times u x ρ →
      ∀ t ≤ times.length, stateAt f t (ρ 0) = ρ (gridPoint (fun t : Fin times.length => times[t]) t) := by
  obtain ⟨g, hg, hl, -⟩ := c38_generator p Ls times u x hL hne hd hrow hdH hcH
  let p' : LPar n := { p with method := .frechet, L := { p.L with expm := NormedSpace.exp } }
  have hg' : p'.gens times u x = .ok g := hg
  obtain ⟨ps, f, -, h2, h3, h4⟩ := p.run_ok (by rw [hm]; simp) times u x g hg hl
  obtain ⟨ps', f', -, h2', h3', h4'⟩ := p'.run_ok (by simp [p']) times u x g hg' hl
  have hps : ps = ps' := by
    rw [h3, h3']
    refine List.map_congr_left fun t ht => ?_
    have ht : t < g.length := by rw [hl]; exact List.mem_range.mp ht
    rw [propOf_spectral p hm hs, propOf_base p' rfl fun A => rfl, List.getD_eq_getElem _ _ ht]
    obtain ⟨s1, s2, s3⟩ := hn g hg _ (List.getElem_mem ht)
    obtain ⟨b1, b2, -⟩ := hEig _ s2
    have := c20_normal_partial p.L hEig g[t] s2 s1 (s3 _ _ b1 b2) ((times.getD t 0 : ℝ) : ℂ)
    exact Except.ok.inj this
  have hff : f = f' := by
    rw [← hps] at h4'
    refine List.ext_getElem? fun i => ?_
    by_cases hi : i ≤ ps.length
    · rw [isForward_unique h4 i hi, isForward_unique h4' i hi]
    · rw [List.getElem?_eq_none (by rw [h4.1]; omega), List.getElem?_eq_none (by rw [h4'.1]; omega)]
  obtain ⟨f'', c1, c2, c3⟩ := c138_master p' Ls times u x hL hne hd hu hrow hdH hcH rfl (fun A => rfl) hi hpos
  have : f'' = f := by
    rw [hff]
    rw [h2'] at c1
    exact (Except.ok.inj c1).symm
  subst this
  exact ⟨f'', h2, c2, fun ρ hρ t ht => c3 ρ ⟨hρ.cont, hρ.deriv⟩ t ht⟩

/-! ## Cases -/

namespace Ex167

/-- The excited state is populated with probability `-1/(2e)` at the time 1. -/
example : ∃ (L : Lapack (Fin 2 × Fin 2)) (f : _), (decaying L .spectral).fwd [1] [[5]] [] = .ok f ∧
    (stateAt f 1 !![1, 0; 0, 0] 1 1).re ≤ -(Real.exp (-1) / 2) := by
  obtain ⟨L, -, hE, -⟩ := lapack_exists (Fin 2 × Fin 2)
  exact ⟨L, (c167_violated L hE 1 5).2⟩

/-- A qubit which is flipped and shifted in phase at random. -/
noncomputable def flips (L : Lapack (Fin 2 × Fin 2)) : LPar (Fin 2) :=
  ⟨L, .spectral, false, 1, [0], [!![1, 0; 0, -1]],
    ⟨none, some [!![0, 1; 1, 0], !![0, -2 * Complex.I; 2 * Complex.I, 0]], none, none, none, none⟩⟩

noncomputable def flipGen : Sup (Fin 2) := Matrix.of fun i j =>
  if i = j then -5 else if i = (0, 0) ∧ j = (1, 1) ∨ i = (1, 1) ∧ j = (0, 0) then 5
    else if i = (0, 1) ∧ j = (1, 0) ∨ i = (1, 0) ∧ j = (0, 1) then -3 else 0

theorem flips_herm (L : Lapack (Fin 2 × Fin 2)) : ∀ H ∈ (flips L).ctrl, H.IsHermitian := by
  intro H hH
  rw [show (flips L).ctrl = [!![1, 0; 0, -1]] from rfl, List.mem_singleton] at hH
  subst hH
  ext i j
  fin_cases i <;> fin_cases j <;> simp

theorem flips_gens (L : Lapack (Fin 2 × Fin 2)) : (flips L).gens [1] [[0]] [] = .ok [flipGen] := by
  obtain ⟨g, h1, h2, h3⟩ := c38_generator (flips L) [!![0, 1; 1, 0], !![0, -2 * Complex.I; 2 * Complex.I, 0]] [1] [[0]] []
    ⟨rfl, rfl, by simp, fun f hf => by cases hf⟩ (by simp) rfl (by simp [flips]) (by simp [flips, Matrix.IsHermitian]) (flips_herm L)
  obtain ⟨G, e1, e2⟩ := h3 0 0 [0] rfl rfl
  have hg : g = [G] := by
    match g, h2, e1 with
    | [x], _, e => simpa using e
  rw [h1, hg]
  congr 2
  refine matrix_ext_mulVec fun ρ => (e2 ρ).trans ?_
  have hT : (!![0, 1; 1, 0] : Matrix (Fin 2) (Fin 2) ℂ)ᴴ = !![0, 1; 1, 0] := by
    ext i j
    fin_cases i <;> fin_cases j <;> simp
  have hT' : (!![0, -(2 * Complex.I); 2 * Complex.I, 0] : Matrix (Fin 2) (Fin 2) ℂ)ᴴ = !![0, -(2 * Complex.I); 2 * Complex.I, 0] := by
    ext i j
    fin_cases i <;> fin_cases j <;> simp
  rw [Matrix.eta_fin_two ρ]
  funext ⟨i, j⟩
  have hI : Complex.I ^ 2 = -1 := Complex.I_sq
  fin_cases i <;> fin_cases j <;>
    simp [master, hamiltonian, flips, weightsAt, hT, hT', Matrix.vec, Matrix.mulVec, dotProduct, flipGen, Fintype.sum_prod_type] <;> ring_nf <;>
    simp only [hI] <;> ring

theorem flipGen_simple : SimpleSpectrum flipGen where
  normal := by
    have : flipGenᴴ = flipGen := by
      ext ⟨i, j⟩ ⟨k, l⟩
      fin_cases i <;> fin_cases j <;> fin_cases k <;> fin_cases l <;> simp [flipGen]
    rw [this]
  basis := by
    refine ⟨fun i => if i = (0, 0) then 0 else if i = (1, 1) then -10 else if i = (0, 1) then -8 else -2, Matrix.of fun i j =>
      if i = (1, 1) ∧ j = (1, 1) ∨ i = (1, 0) ∧ j = (1, 0) then -1 else if i = j ∨ i.1 + i.2 = j.1 + j.2 then 1 else 0, ?_, ?_⟩
    · refine ⟨⟨_, Matrix.of fun i j =>
        if i = (1, 1) ∧ j = (1, 1) ∨ i = (1, 0) ∧ j = (1, 0) then -1 / 2 else if i = j ∨ i.1 + i.2 = j.1 + j.2 then 1 / 2 else 0, ?_, ?_⟩, rfl⟩ <;>
      · ext ⟨i, j⟩ ⟨k, l⟩
        fin_cases i <;> fin_cases j <;> fin_cases k <;> fin_cases l <;> simp [Matrix.mul_apply, Fintype.sum_prod_type, Fin.sum_univ_two] <;> norm_num
    · ext ⟨i, j⟩ ⟨k, l⟩
      fin_cases i <;> fin_cases j <;> fin_cases k <;> fin_cases l <;>
        simp [Matrix.mul_apply, Fintype.sum_prod_type, Fin.sum_univ_two, flipGen] <;> norm_num
  simple := by
    intro lam V hu hAV i j hij
    by_contra hne
    -- a relation between the two columns
    have key : ∀ c d : ℂ, (∀ r, c * V r i + d * V r j = 0) → c = 0 ∧ d = 0 := by
      intro c d h
      obtain ⟨W, hW⟩ := hu.exists_left_inv
      have hz : ∀ k, c * (1 : Sup (Fin 2)) k i + d * (1 : Sup (Fin 2)) k j = 0 := by
        intro k
        rw [← hW, Matrix.mul_apply, Matrix.mul_apply, Finset.mul_sum, Finset.mul_sum, ← Finset.sum_add_distrib]
        refine Finset.sum_eq_zero fun r _ => ?_
        linear_combination W k r * h r
      have h1 := hz i
      have h2 := hz j
      rw [Matrix.one_apply_eq, Matrix.one_apply_ne hne] at h1
      rw [Matrix.one_apply_eq, Matrix.one_apply_ne (Ne.symm hne)] at h2
      exact ⟨by simpa using h1, by simpa using h2⟩
    have f : ∀ k, lam k * (V (0, 0) k + V (1, 1) k) = 0 ∧ (lam k + 10) * (V (0, 0) k - V (1, 1) k) = 0 ∧
        (lam k + 8) * (V (0, 1) k + V (1, 0) k) = 0 ∧ (lam k + 2) * (V (0, 1) k - V (1, 0) k) = 0 := by
      intro k
      have e0 := eigen_entry hAV (0, 0) k
      have e1 := eigen_entry hAV (0, 1) k
      have e2 := eigen_entry hAV (1, 0) k
      have e3 := eigen_entry hAV (1, 1) k
      simp [Fintype.sum_prod_type, Fin.sum_univ_two, flipGen] at e0 e1 e2 e3
      refine ⟨?_, ?_, ?_, ?_⟩
      · linear_combination -e0 - e3
      · linear_combination -e0 + e3
      · linear_combination -e1 - e2
      · linear_combination -e1 + e2
    obtain ⟨a0, a1, a2, a3⟩ := f i
    obtain ⟨b0, b1, b2, b3⟩ := f j
    rw [← hij] at b0 b1 b2 b3
    generalize lam i = l at *
    -- all but one of the four combinations vanish for both columns
    have fin : ∀ p q : ℂ, (∀ r, q * V r i + -p * V r j = 0) → (p = 0 → ∀ r, 1 * V r i + 0 * V r j = 0) → False := by
      intro p q h1 h2
      obtain ⟨-, h⟩ := key q (-p) h1
      have := key 1 0 (h2 (by simpa using h))
      exact one_ne_zero this.1
    by_cases l0 : l = 0
    · subst l0
      norm_num at a1 a2 a3 b1 b2 b3
      refine fin (V (0, 0) i) (V (0, 0) j) ?_ ?_
      · rintro ⟨r, s⟩
        fin_cases r <;> fin_cases s <;> simp <;> grind
      · rintro h ⟨r, s⟩
        fin_cases r <;> fin_cases s <;> simp <;> grind
    by_cases l1 : l + 10 = 0
    · have : l = -10 := by linear_combination l1
      subst this
      norm_num at a0 a2 a3 b0 b2 b3
      refine fin (V (0, 0) i) (V (0, 0) j) ?_ ?_
      · rintro ⟨r, s⟩
        fin_cases r <;> fin_cases s <;> simp <;> grind
      · rintro h ⟨r, s⟩
        fin_cases r <;> fin_cases s <;> simp <;> grind
    have a0' := (mul_eq_zero.mp a0).resolve_left l0
    have a1' := (mul_eq_zero.mp a1).resolve_left l1
    have b0' := (mul_eq_zero.mp b0).resolve_left l0
    have b1' := (mul_eq_zero.mp b1).resolve_left l1
    by_cases l2 : l + 8 = 0
    · have : l = -8 := by linear_combination l2
      subst this
      norm_num at a3 b3
      refine fin (V (0, 1) i) (V (0, 1) j) ?_ ?_
      · rintro ⟨r, s⟩
        fin_cases r <;> fin_cases s <;> simp <;> grind
      · rintro h ⟨r, s⟩
        fin_cases r <;> fin_cases s <;> simp <;> grind
    have a2' := (mul_eq_zero.mp a2).resolve_left l2
    have b2' := (mul_eq_zero.mp b2).resolve_left l2
    refine fin (V (0, 1) i) (V (0, 1) j) ?_ ?_
    · rintro ⟨r, s⟩
      fin_cases r <;> fin_cases s <;> simp <;> grind
    · by_cases l3 : l + 2 = 0
      · rintro h ⟨r, s⟩
        fin_cases r <;> fin_cases s <;> simp <;> grind
      · have a3' := (mul_eq_zero.mp a3).resolve_left l3
        rintro h ⟨r, s⟩
        fin_cases r <;> fin_cases s <;> simp <;> grind

/-- `c167_normal_partial` applies. -/
example : ∃ (L : Lapack (Fin 2 × Fin 2)) (f : _), (flips L).fwd [1] [[0]] [] = .ok f ∧ ∀ ρ : ℝ → Matrix (Fin 2) (Fin 2) ℂ,
    LPar.Solves (flips L) [!![0, 1; 1, 0], !![0, -2 * Complex.I; 2 * Complex.I, 0]] [1] [[0]] [] ρ →
      ∀ t ≤ 1, stateAt f t (ρ 0) = ρ (gridPoint (fun t : Fin [(1 : ℝ)].length => [(1 : ℝ)][t]) t) := by
  obtain ⟨L, -, hE, -⟩ := lapack_exists (Fin 2 × Fin 2)
  obtain ⟨f, h1, -, h2⟩ := c167_normal_partial (flips L) [!![0, 1; 1, 0], !![0, -2 * Complex.I; 2 * Complex.I, 0]] [1] [[0]] []
    ⟨rfl, rfl, by simp, fun f hf => by cases hf⟩ (by simp) rfl rfl (by simp [flips]) (by simp [flips, Matrix.IsHermitian]) (flips_herm L)
    rfl rfl hE (by
      intro g hg G hG
      rw [flips_gens] at hg
      obtain rfl := Except.ok.inj hg
      rw [List.mem_singleton.mp hG]
      exact flipGen_simple) rfl (by simp)
  exact ⟨L, f, h1, h2⟩

end Ex167

end Verif.Cost
