import Verif.Cost.LindbladTotal

/-!
# C147: Equivalent descriptions of the dissipation

The master equation does not determine its Lindblad operators.  Descriptions which are physically the same must give the same results.
-/

namespace Verif.Cost
open Verif Verif.Operator Verif.Solver Matrix
open scoped Kronecker

section
variable {n : Type} [Fintype n] [DecidableEq n]

/-! ## Specification -/

/-- Everything that can be read from two solvers, and infidelity and gradient for every target and computational subspace, is the same. -/
structure SameOpen (p q : LPar n) (times : List ℝ) (u x : Pulse) : Prop where
  props : p.props times u x = q.props times u x
  fwd : p.fwd times u x = q.fwd times u x
  rev : p.rev times u x = q.rev times u x
  derivs : p.derivs times u x = q.derivs times u x
  costs : ∀ (cs : Option (List n)) (T : Matrix (CompIdx cs) (CompIdx cs) ℂ), lindCosts cs T p times u x = lindCosts cs T q times u x
  grad : ∀ (cs : Option (List n)) (T : Matrix (CompIdx cs) (CompIdx cs) ℂ), lindGrad cs T p times u x = lindGrad cs T q times u x

/-- What one Lindblad operator contributes to the master equation. -/
noncomputable def lindbladTerm (L ρ : Matrix n n ℂ) : Matrix n n ℂ := L * ρ * Lᴴ - (1 / 2 : ℂ) • (Lᴴ * L * ρ + ρ * (Lᴴ * L))

/-! ## Lemmas -/

theorem same_of {p q : LPar n} {times : List ℝ} {u x : Pulse} (h1 : p.L = q.L) (h2 : p.method = q.method) (h3 : p.skew = q.skew)
    (h4 : p.init = q.init) (h5 : p.ctrl = q.ctrl) (hg : p.gens times u x = q.gens times u x)
    (hd : lindDirs p.ctrl p.diss times u x = lindDirs q.ctrl q.diss times u x) : SameOpen p q times u x := by
  have hb : ∀ d, p.base d = q.base d := by
    intro d
    unfold LPar.base
    rw [h1, h2, h3, h4, h5]
  have e1 : p.props times u x = q.props times u x := by unfold LPar.props; rw [hg, hb]
  have e2 : p.fwd times u x = q.fwd times u x := by unfold LPar.fwd; rw [e1, hb]
  have e3 : p.rev times u x = q.rev times u x := by unfold LPar.rev; rw [e1]
  have e4 : p.derivs times u x = q.derivs times u x := by
    unfold LPar.derivs
    rw [hg, hd]
    simp only [hb]
  refine ⟨e1, e2, e3, e4, fun cs T => by unfold lindCosts; rw [e2], fun cs T => ?_⟩
  unfold lindGrad lindTrace
  rw [e2, e3, e4]

/-- A matrix is determined by its action on vectorised matrices. -/
theorem sup_ext {S S' : Sup n} (h : ∀ ρ : Matrix n n ℂ, S *ᵥ vec ρ = S' *ᵥ vec ρ) : S = S' := by
  apply Matrix.ext_of_mulVec_single
  intro i
  have : vec (Matrix.single i.2 i.1 (1 : ℂ)) = Pi.single i 1 := by
    ext ⟨a, b⟩
    simp [vec, Matrix.single, Pi.single_apply, Prod.ext_iff, eq_comm, and_comm]
  rw [← this]
  exact h _

/-- The sesquilinear form of `dissOf`. -/
noncomputable def dissPol (A B : Matrix n n ℂ) : Sup n :=
  conjM A ⊗ₖ B - (1 / 2 : ℂ) • ((1 : Matrix n n ℂ) ⊗ₖ (Aᴴ * B)) - (1 / 2 : ℂ) • ((Bᵀ * conjM A) ⊗ₖ (1 : Matrix n n ℂ))

theorem dissPol_mulVec (A B ρ : Matrix n n ℂ) :
    dissPol A B *ᵥ vec ρ = vec (B * ρ * Aᴴ - (1 / 2 : ℂ) • (Aᴴ * B * ρ + ρ * (Aᴴ * B))) := by
  unfold dissPol
  rw [Matrix.sub_mulVec, Matrix.sub_mulVec, Matrix.smul_mulVec, Matrix.smul_mulVec, kronecker_mulVec_vec,
    kronecker_mulVec_vec, kronecker_mulVec_vec, ← vec_smul, ← vec_smul, ← vec_sub, ← vec_sub]
  congr 1
  simp only [conjM_eq, Matrix.transpose_mul, Matrix.transpose_transpose, Matrix.transpose_one, Matrix.one_mul,
    Matrix.mul_one, smul_add, Matrix.mul_assoc]
  abel

theorem dissOf_smul (c : ℂ) (L : Matrix n n ℂ) : dissOf (c • L) = ((Complex.normSq c : ℝ) : ℂ) • dissOf L := by
  refine sup_ext fun ρ => ?_
  rw [dissOf_mulVec, Matrix.smul_mulVec, dissOf_mulVec, ← vec_smul]
  congr 1
  simp only [Matrix.conjTranspose_smul, Matrix.smul_mul, Matrix.mul_smul, smul_smul, smul_sub, smul_add, ← Complex.mul_conj]
  have e : star c = (starRingEnd ℂ) c := rfl
  rw [e]
  module

omit [Fintype n] [DecidableEq n] in
theorem vec_sums {ι : Type} (s : Finset ι) (f : ι → Matrix n n ℂ) : ∑ i ∈ s, vec (f i) = vec (∑ i ∈ s, f i) := by
  ext ⟨a, b⟩
  simp [vec, Finset.sum_apply, Matrix.sum_apply]

theorem mixed_sum {r s : Nat} (A : Fin r → Matrix n n ℂ) (W : Matrix (Fin s) (Fin r) ℂ) (hW : Wᴴ * W = 1) :
    ∑ i, dissOf (∑ j, W i j • A j) = ∑ j, dissOf (A j) := by
  have hw : ∀ j k, ∑ i, star (W i j) * W i k = if j = k then 1 else 0 := by
    intro j k
    have := congrFun (congrFun hW j) k
    rwa [Matrix.mul_apply, Matrix.one_apply] at this
  refine sup_ext fun ρ => ?_
  have key : ∀ i, dissOf (∑ j, W i j • A j) *ᵥ vec ρ = ∑ j, ∑ k, (star (W i j) * W i k) • (dissPol (A j) (A k) *ᵥ vec ρ) := by
    intro i
    rw [dissOf_mulVec]
    simp only [dissPol_mulVec, ← vec_smul, vec_sums]
    congr 1
    simp only [Matrix.conjTranspose_sum, Matrix.conjTranspose_smul, Matrix.sum_mul, Matrix.mul_sum, Matrix.smul_mul, Matrix.mul_smul,
      smul_smul, smul_sub, smul_add, Finset.smul_sum, Finset.sum_sub_distrib, Finset.sum_add_distrib]
    refine congrArg₂ _ rfl (congrArg₂ _ ?_ ?_)
    all_goals
      rw [Finset.sum_comm]
      refine Finset.sum_congr rfl fun j _ => Finset.sum_congr rfl fun k _ => ?_
      congr 1
      ring
  rw [Matrix.sum_mulVec, Matrix.sum_mulVec, Finset.sum_congr rfl fun i _ => key i, Finset.sum_comm]
  refine Finset.sum_congr rfl fun j _ => ?_
  rw [Finset.sum_comm]
  simp only [← Finset.sum_smul, hw, ite_smul, one_smul, zero_smul, Finset.sum_ite_eq, Finset.mem_univ, if_true]
  rw [dissPol_mulVec, dissOf_mulVec]

theorem dissOf_shift (L : Matrix n n ℂ) (a : ℂ) :
    dissOf (L + a • 1) = (1 : Matrix n n ℂ) ⊗ₖ ((1 / 2 : ℂ) • (star a • L - a • Lᴴ)) +
      conjM ((1 / 2 : ℂ) • (star a • L - a • Lᴴ)) ⊗ₖ (1 : Matrix n n ℂ) + dissOf L := by
  refine sup_ext fun ρ => ?_
  rw [Matrix.add_mulVec, Matrix.add_mulVec, dissOf_mulVec, dissOf_mulVec, kronecker_mulVec_vec, kronecker_mulVec_vec, ← vec_add, ← vec_add]
  congr 1
  simp only [conjM_eq, Matrix.transpose_transpose, Matrix.transpose_one, Matrix.conjTranspose_add, Matrix.conjTranspose_sub,
    Matrix.conjTranspose_smul, Matrix.conjTranspose_one, Matrix.conjTranspose_conjTranspose, Matrix.add_mul, Matrix.mul_add,
    Matrix.sub_mul, Matrix.mul_sub, Matrix.smul_mul, Matrix.mul_smul, Matrix.one_mul, Matrix.mul_one, smul_add, smul_sub, smul_smul]
  have h2 : ∀ z : ℂ, star (1 / 2 * z) = 1 / 2 * star z := by intro z; simp
  rw [h2, h2, star_star]
  module

omit [Fintype n] [DecidableEq n] in
theorem addCtrl_shift (H X : Matrix n n ℂ) (Gs : List (Matrix n n ℂ)) (as : List ℝ) :
    addCtrl H (Gs.map (· + X)) as = (addCtrl H Gs as).map (· + X) := by
  induction Gs generalizing as with
  | nil => cases as <;> rfl
  | cons G Gs ih =>
    cases as with
    | nil => rfl
    | cons a as =>
      simp only [List.map_cons, addCtrl, ih]
      rw [add_right_comm]

omit [Fintype n] [DecidableEq n] in
theorem addCtrls_shift (u : Pulse) (X : Matrix n n ℂ) (c : Nat) (Hs Gs : List (Matrix n n ℂ)) :
    addCtrls u c Hs (Gs.map (· + X)) = (addCtrls u c Hs Gs).map (· + X) := by
  induction Hs generalizing c Gs with
  | nil => rfl
  | cons H Hs ih => rw [addCtrls, addCtrl_shift, ih, addCtrls]

omit [Fintype n] [DecidableEq n] in
theorem schroedGens_shift (drift ctrl : List (Matrix n n ℂ)) (u : Pulse) (M : Matrix n n ℂ) :
    schroedGens (drift.map (· + M)) ctrl u = (schroedGens drift ctrl u).map (· + (-Complex.I) • M) := by
  unfold schroedGens
  rw [← addCtrls_shift, List.map_map, List.map_map]
  congr 1
  refine List.map_congr_left fun h _ => ?_
  show (-Complex.I) • (h + M) = (-Complex.I) • h + (-Complex.I) • M
  rw [smul_add]

omit [Fintype n] in
theorem supGen_shift (G X : Matrix n n ℂ) (D : Sup n) :
    supGen (G + X) D = supGen G ((1 : Matrix n n ℂ) ⊗ₖ X + conjM X ⊗ₖ (1 : Matrix n n ℂ) + D) := by
  unfold supGen
  have : conjM (G + X) = conjM G + conjM X := by
    ext i j
    simp [conjM]
  rw [this, Matrix.kronecker_add, Matrix.add_kronecker]
  abel

theorem calcDiss_plain (d : Diss n) (h1 : d.supOp = none) (h2 : d.prefactor = none) (Ls : List (Matrix n n ℂ)) (h3 : d.lindblad = some Ls)
    (hne : Ls ≠ []) (times : List ℝ) (u x : Pulse) :
    (calcDiss d times u x).1 = .ok (List.replicate times.length (Ls.map dissOf).sum) := by
  cases Ls with
  | nil => exact absurd rfl hne
  | cons L Ls =>
    unfold calcDiss constDiss
    simp only [h1, h2, h3, List.map_cons, foldl_add_eq, List.sum_cons]

/-! ## C147 -/

/-- **C147** (a) Combining the Lindblad operators linearly with the entries of a unitary matrix, or an isometry, changes nothing: neither
propagators and derivatives nor costs and gradients. -/
theorem c147_mixing (p : LPar n) (r s : Nat) (hr : 0 < r) (A : Fin r → Matrix n n ℂ) (W : Matrix (Fin s) (Fin r) ℂ) (hW : Wᴴ * W = 1)
    (hA : p.diss.lindblad = some (List.ofFn A)) (hs : p.diss.supOp = none) (hf : p.diss.prefactor = none)
    (hf' : p.diss.prefactorDeriv = none) (times : List ℝ) (u x : Pulse) :
    SameOpen p { p with diss := { p.diss with lindblad := some (List.ofFn fun i => ∑ j, W i j • A j) } } times u x := by
  have h0 : 0 < s := by
    rcases Nat.eq_zero_or_pos s with rfl | h
    · have := congrFun (congrFun hW ⟨0, hr⟩) ⟨0, hr⟩
      simp [Matrix.mul_apply] at this
    · exact h
  have ne1 : List.ofFn A ≠ [] := by
    intro h
    have := congrArg List.length h
    simp at this
    omega
  have ne2 : (List.ofFn fun i => ∑ j, W i j • A j) ≠ [] := by
    intro h
    have := congrArg List.length h
    simp at this
    omega
  refine same_of rfl rfl rfl rfl rfl ?_ ?_
  · unfold LPar.gens
    rw [calcDiss_plain p.diss hs hf _ hA ne1, calcDiss_plain _ (by exact hs) (by exact hf) _ rfl ne2]
    simp only [List.map_ofFn, List.sum_ofFn, Function.comp_def, mixed_sum A W hW]
  · unfold lindDirs calcDissDeriv
    simp only [hf']

/-- **C147** (b) Factors in front of Lindblad operators are rates: multiplying the operator by `c` is the same as multiplying its prefactor
(and the derivatives of it) by `|c|²`, for every prefactor function. -/
theorem c147_scale (p : LPar n) (Ls : List (Matrix n n ℂ)) (c : List ℂ) (hc : c.length = Ls.length) (f : Pulse → Pulse → List (List ℝ))
    (f' : Option (Pulse → Pulse → List (List (List ℝ)))) (hs : p.diss.supOp = none) (times : List ℝ) (u x : Pulse) :
    SameOpen { p with diss := { p.diss with lindblad := some (List.zipWith (fun (c : ℂ) (L : Matrix n n ℂ) => c • L) c Ls), prefactor := some f, prefactorDeriv := f' } }
      { p with diss := { p.diss with lindblad := some Ls, prefactor := some fun u x => (f u x).map fun row => List.zipWith (fun c w => Complex.normSq c * w) c row,
                                     prefactorDeriv := f'.map fun g u x => (g u x).map fun m => m.map fun row => List.zipWith (fun c w => Complex.normSq c * w) c row } }
      times u x := by
  have key : ∀ row : List ℝ, weighted ((List.zipWith (fun (c : ℂ) (L : Matrix n n ℂ) => c • L) c Ls).map dissOf) row =
      weighted (Ls.map dissOf) (List.zipWith (fun c w => Complex.normSq c * w) c row) := by
    intro row
    have aux : ∀ (c : List ℂ) (Ls : List (Matrix n n ℂ)) (row : List ℝ), c.length = Ls.length →
        List.zipWith (fun (S : Sup n) (a : ℝ) => (a : ℂ) • S) ((List.zipWith (fun (c : ℂ) (L : Matrix n n ℂ) => c • L) c Ls).map dissOf) row =
        List.zipWith (fun (S : Sup n) (a : ℝ) => (a : ℂ) • S) (Ls.map dissOf) (List.zipWith (fun c w => Complex.normSq c * w) c row) := by
      intro c
      induction c with
      | nil => intro Ls row h; cases Ls <;> simp_all
      | cons z c ih =>
        intro Ls row h
        cases Ls with
        | nil => simp at h
        | cons L Ls =>
          cases row with
          | nil => simp
          | cons w row =>
            simp only [List.zipWith_cons_cons, List.map_cons]
            rw [ih Ls row (by simpa using h), dissOf_smul, smul_smul]
            push_cast
            rw [mul_comm]
    cases c with
    | nil =>
      cases Ls with
      | nil => rfl
      | cons L Ls => simp at hc
    | cons z c =>
      cases Ls with
      | nil => simp at hc
      | cons L Ls =>
        cases row with
        | nil => rfl
        | cons w row =>
          have h := aux c Ls row (by simpa using hc)
          simp only [List.zipWith_cons_cons, List.map_cons, weighted, h]
          rw [dissOf_smul, smul_smul]
          push_cast
          rw [mul_comm]
  have hconst : ∀ i pf pd so sd, constDiss (⟨i, some (List.zipWith (fun (c : ℂ) (L : Matrix n n ℂ) => c • L) c Ls), pf, pd, so, sd⟩ : Diss n) =
      (if Ls = [] then .error .indexError else .ok ((List.zipWith (fun (c : ℂ) (L : Matrix n n ℂ) => c • L) c Ls).map dissOf)) := by
    intro i pf pd so sd
    unfold constDiss
    cases c with
    | nil =>
      cases Ls with
      | nil => rfl
      | cons L Ls => simp at hc
    | cons z c =>
      cases Ls with
      | nil => simp at hc
      | cons L Ls => rfl
  have hconst' : ∀ i pf pd so sd, constDiss (⟨i, some Ls, pf, pd, so, sd⟩ : Diss n) =
      (if Ls = [] then .error .indexError else .ok (Ls.map dissOf)) := by
    intro i pf pd so sd
    unfold constDiss
    cases Ls <;> rfl
  refine same_of rfl rfl rfl rfl rfl ?_ ?_
  · unfold LPar.gens calcDiss
    simp only [hs, hconst, hconst']
    split_ifs
    · rfl
    · simp only [List.map_map, Function.comp_def, funext key]
  · unfold lindDirs calcDissDeriv
    simp only [hconst, hconst']
    cases f' with
    | none => rfl
    | some g =>
      simp only [Option.map_some]
      cases p.diss.supOpDeriv with
      | some h => rfl
      | none =>
        split_ifs
        · rfl
        · rfl
        · simp only [bind, Except.bind, List.map_map, Function.comp_def, funext key]

/-- **C147** (c) A multiple of the identity can be moved from the Lindblad operators into the Hamiltonian: the operators `L_k + a_k` with
drift `H` and the operators `L_k` with drift `H + (i/2) Σ (a_k* L_k - a_k L_k†)` give the same results. -/
theorem c147_shift (p : LPar n) (r : Nat) (hr : 0 < r) (A : Fin r → Matrix n n ℂ) (a : Fin r → ℂ)
    (hA : p.diss.lindblad = some (List.ofFn fun k => A k + a k • 1)) (hs : p.diss.supOp = none) (hf : p.diss.prefactor = none)
    (hf' : p.diss.prefactorDeriv = none) (times : List ℝ) (u x : Pulse) :
    SameOpen p { p with drift := p.drift.map (· + (Complex.I / 2) • ∑ k, (star (a k) • A k - a k • (A k)ᴴ)),
                        diss := { p.diss with lindblad := some (List.ofFn A) } } times u x := by
  have ne1 : ∀ B : Fin r → Matrix n n ℂ, List.ofFn B ≠ [] := by
    intro B h
    have := congrArg List.length h
    simp at this
    omega
  set K : Matrix n n ℂ := ∑ k, (1 / 2 : ℂ) • (star (a k) • A k - a k • (A k)ᴴ) with hK
  have hX : (-Complex.I) • ((Complex.I / 2) • ∑ k, (star (a k) • A k - a k • (A k)ᴴ)) = K := by
    rw [hK, smul_smul, Finset.smul_sum]
    refine Finset.sum_congr rfl fun k _ => ?_
    congr 1
    linear_combination (-1 / 2 : ℂ) * Complex.I_mul_I
  have hsum : ∑ k, dissOf (A k + a k • 1) = (1 : Matrix n n ℂ) ⊗ₖ K + conjM K ⊗ₖ (1 : Matrix n n ℂ) + ∑ k, dissOf (A k) := by
    simp only [dissOf_shift, Finset.sum_add_distrib]
    congr 2
    · ext ⟨i, j⟩ ⟨k, l⟩
      simp only [hK, Matrix.sum_apply, Matrix.kroneckerMap_apply, Finset.mul_sum]
    · ext ⟨i, j⟩ ⟨k, l⟩
      simp only [hK, conjM, Matrix.map_apply, Matrix.sum_apply, Matrix.kroneckerMap_apply, Finset.sum_mul, map_sum]
  refine same_of rfl rfl rfl rfl rfl ?_ ?_
  · unfold LPar.gens
    rw [calcDiss_plain p.diss hs hf _ hA (ne1 _), calcDiss_plain _ (by exact hs) (by exact hf) _ rfl (ne1 _)]
    simp only [List.map_ofFn, List.sum_ofFn, Function.comp_def, hsum, bind, Except.bind, lindGens, schroedGens_shift, hX]
    simp only [List.map_eq_nil_iff, List.length_map, List.length_replicate]
    split
    · rfl
    · split
      · rfl
      · congr 1
        apply List.ext_getElem
        · simp
        · intro i h1 h2
          simp [supGen_shift]
  · unfold lindDirs calcDissDeriv
    simp only [hf']

/-- **C147** (d) The order of the Lindblad operators does not matter, if the prefactors are given in the same order. -/
theorem c147_order (p : LPar n) (r : Nat) (A : Fin r → Matrix n n ℂ) (σ : Equiv.Perm (Fin r)) (f : Pulse → Pulse → List (Fin r → ℝ))
    (f' : Option (Pulse → Pulse → List (List (Fin r → ℝ)))) (hs : p.diss.supOp = none) (times : List ℝ) (u x : Pulse) :
    SameOpen { p with diss := { p.diss with lindblad := some (List.ofFn A), prefactor := some fun u x => (f u x).map List.ofFn,
                                            prefactorDeriv := f'.map fun g u x => (g u x).map fun m => m.map List.ofFn } }
      { p with diss := { p.diss with lindblad := some (List.ofFn (A ∘ σ)), prefactor := some fun u x => (f u x).map fun w => List.ofFn (w ∘ σ),
                                     prefactorDeriv := f'.map fun g u x => (g u x).map fun m => m.map fun w => List.ofFn (w ∘ σ) } }
      times u x := by
  have key : ∀ w : Fin r → ℝ, weighted ((List.ofFn A).map dissOf) (List.ofFn w) = weighted ((List.ofFn (A ∘ σ)).map dissOf) (List.ofFn (w ∘ σ)) := by
    intro w
    cases r with
    | zero => rfl
    | succ r =>
      have ne : ∀ B : Fin (r + 1) → Matrix n n ℂ, List.ofFn B ≠ [] := by
        intro B h
        have := congrArg List.length h
        simp at this
      have hz : ∀ (B : Fin (r + 1) → Matrix n n ℂ) (w : Fin (r + 1) → ℝ), wDiss ((List.ofFn w).zip (List.ofFn B)) = ∑ k, (w k : ℂ) • dissOf (B k) := by
        intro B w
        unfold wDiss
        rw [← List.sum_ofFn]
        congr 1
        apply List.ext_getElem
        · simp
        · intro i h1 h2
          simp only [List.getElem_map, List.getElem_zip, List.getElem_ofFn]
      rw [weighted_eq _ _ (ne _) (by simp), weighted_eq _ _ (ne _) (by simp), hz, hz]
      congr 1
      exact (Equiv.sum_comp σ fun k => (w k : ℂ) • dissOf (A k)).symm
  have hconst : ∀ (B : Fin r → Matrix n n ℂ) i pf pd so sd, constDiss (⟨i, some (List.ofFn B), pf, pd, so, sd⟩ : Diss n) =
      (if r = 0 then .error .indexError else .ok ((List.ofFn B).map dissOf)) := by
    intro B i pf pd so sd
    unfold constDiss
    cases r with
    | zero => simp
    | succ r =>
      rw [if_neg (by omega), List.ofFn_succ]
  refine same_of rfl rfl rfl rfl rfl ?_ ?_
  · unfold LPar.gens calcDiss
    simp only [hs, hconst]
    split_ifs
    · rfl
    · simp only [List.map_map, Function.comp_def] at key ⊢
      simp only [key]
  · unfold lindDirs calcDissDeriv
    simp only [hconst]
    cases f' with
    | none => rfl
    | some g =>
      simp only [Option.map_some]
      cases p.diss.supOpDeriv with
      | some h => rfl
      | none =>
        split_ifs
        · rfl
        · rfl
        · simp only [bind, Except.bind, List.map_map, Function.comp_def] at key ⊢
          simp only [key]

/-- **C147** (e) Instead of Lindblad operators one can give their super operators, with the same prefactors. -/
theorem c147_super (p : LPar n) (Ls : List (Matrix n n ℂ)) (hne : Ls ≠ []) (S : List (Sup n)) (hlen : S.length = Ls.length)
    (hS : ∀ (k : Nat) L D, Ls[k]? = some L → S[k]? = some D → ∀ ρ : Matrix n n ℂ, D *ᵥ vec ρ = vec (lindbladTerm L ρ))
    (times : List ℝ) (u x : Pulse) :
    SameOpen { p with diss := { p.diss with lindblad := some Ls } } { p with diss := { p.diss with lindblad := none, initial := some S } } times u x := by
  have e : S = Ls.map dissOf := by
    apply List.ext_getElem
    · simp [hlen]
    · intro k h1 h2
      rw [List.getElem_map]
      refine sup_ext fun ρ => ?_
      rw [dissOf_mulVec]
      exact hS k Ls[k] S[k] (List.getElem?_eq_getElem _) (List.getElem?_eq_getElem _) ρ
  subst e
  have hc : ∀ d : Diss n, constDiss { d with lindblad := some Ls } = .ok (Ls.map dissOf) := fun d => constDiss_lindblad _ Ls rfl hne
  refine same_of rfl rfl rfl rfl rfl ?_ ?_
  · unfold LPar.gens calcDiss
    simp only [hc]
    cases p.diss.supOp with
    | some f => rfl
    | none =>
      simp only [constDiss]
      cases p.diss.prefactor with
      | some f => rfl
      | none =>
        cases Ls with
        | nil => exact absurd rfl hne
        | cons L Ls => rfl
  · unfold lindDirs calcDissDeriv
    simp only [hc]
    cases p.diss.supOpDeriv with
    | some f => rfl
    | none =>
      cases p.diss.prefactorDeriv with
      | none => rfl
      | some f => rfl

end

/-! ### Examples -/

/-- Relaxation and excitation of a qubit, given as they are or as two combinations of them. -/
example (L : Lapack (Fin 2 × Fin 2)) (H C : Matrix (Fin 2) (Fin 2) ℂ) (times : List ℝ) (u x : Pulse) :
    let minus : Matrix (Fin 2) (Fin 2) ℂ := !![0, 1; 0, 0]
    let plus : Matrix (Fin 2) (Fin 2) ℂ := !![0, 0; 1, 0]
    let solver := fun Ls => (⟨L, .frechet, false, 1, [H, H], [C], ⟨none, some Ls, none, none, none, none⟩⟩ : LPar (Fin 2))
    SameOpen (solver [minus, plus])
      (solver [(3 / 5 : ℂ) • minus + (4 / 5 : ℂ) • plus, (-4 / 5 : ℂ) • minus + (3 / 5 : ℂ) • plus]) times u x := by
  intro minus plus solver
  have h := c147_mixing (solver [minus, plus]) 2 2 (by norm_num) ![minus, plus] !![3 / 5, 4 / 5; -4 / 5, 3 / 5]
    (by ext i j; fin_cases i <;> fin_cases j <;> norm_num [Matrix.mul_apply, Fin.sum_univ_two, Complex.conj_ofNat])
    (by simp [solver, List.ofFn_succ]) rfl rfl rfl times u x
  simpa [solver, List.ofFn_succ, Fin.sum_univ_two] using h

/-- Dephasing by a projector or by the Pauli matrix. -/
example (L : Lapack (Fin 2 × Fin 2)) (H C : Matrix (Fin 2) (Fin 2) ℂ) (times : List ℝ) (u x : Pulse) :
    let Z : Matrix (Fin 2) (Fin 2) ℂ := !![1, 0; 0, -1]
    let solver := fun Ls => (⟨L, .frechet, false, 1, [H, H], [C], ⟨none, some Ls, none, none, none, none⟩⟩ : LPar (Fin 2))
    SameOpen (solver [Z + (1 : ℂ) • 1]) (solver [Z]) times u x := by
  intro Z solver
  have hZ : Zᴴ = Z := by ext i j; fin_cases i <;> fin_cases j <;> simp [Z]
  have h := c147_shift (solver [Z + (1 : ℂ) • 1]) 1 (by norm_num) ![Z] ![1] (by simp [solver, List.ofFn_succ]) rfl rfl rfl times u x
  simpa [solver, List.ofFn_succ, hZ] using h

end Verif.Cost
