import Verif.Sim.Conjugation
import Verif.Sim.MixingOpen

/-!
# C175: conjugated open systems

`LindbladSolver` (solver_algorithms.py:1572-2105) with the Hamiltonians `-H̄` and the conjugated Lindblad operators, and `OperationInfidelity`
(cost_functions.py:1271-1316) with respect to the conjugated operation.
-/

namespace Verif.Sim
open Verif Verif.Operator Verif.Solver Verif.Cost Matrix
open scoped Kronecker

variable {n : Type} [Fintype n] [DecidableEq n]

/-! ## Specification -/

/-- The conjugated dissipation, in whichever way it is given. -/
def _root_.Verif.Solver.Diss.conjugated (d : Diss n) : Diss n :=
  ⟨d.initial.map fun S => S.map fun A => A.map star, d.lindblad.map fun Ls => Ls.map fun A => A.map star, d.prefactor, d.prefactorDeriv,
    d.supOp.map fun f u x => (f u x).map fun A => A.map star, d.supOpDeriv.map fun f u x => (f u x).map fun r => r.map fun A => A.map star⟩

/-- The open system with the Hamiltonians `-H̄`, the conjugated dissipation and the conjugated initial operator. -/
def _root_.Verif.Solver.LPar.conjugated (p : LPar n) : LPar n :=
  ⟨p.L, p.method, p.skew, p.init.map star, p.drift.map fun H => -H.map star, p.ctrl.map fun H => -H.map star, p.diss.conjugated⟩

/-! ## Lemmas -/

omit [Fintype n] [DecidableEq n] in
theorem conj_length (p : LPar n) : p.conjugated.ctrl.length = p.ctrl.length := by simp [LPar.conjugated]

/-- The amplitudes of the conjugated system as amplitudes of the system. -/
def backRow (p : LPar n) (v : Fin p.conjugated.ctrl.length → ℝ) : Fin p.ctrl.length → ℝ := fun k => v (Fin.cast (conj_length p).symm k)

/-- The dissipation of the conjugated system. -/
def conjDiss (p : LPar n) {N : Nat} (E : Fin N → (Fin p.ctrl.length → ℝ) → Sup n) (t : Fin N) (v : Fin p.conjugated.ctrl.length → ℝ) : Sup n :=
  (E t (backRow p v)).map star

omit [Fintype n] [DecidableEq n] in
theorem rows_back (p : LPar n) {N : Nat} (V : Fin N → Fin p.conjugated.ctrl.length → ℝ) : rowsOf (fun t => backRow p (V t)) = rowsOf V := by
  unfold rowsOf
  congr 1
  funext t
  refine List.ext_getElem (by simp [conj_length]) fun i h1 h2 => ?_
  simp [backRow]

omit [Fintype n] [DecidableEq n] in
theorem kron_conj (A B : Matrix n n ℂ) : (A ⊗ₖ B).map star = A.map star ⊗ₖ B.map star := by
  ext ⟨i, j⟩ ⟨a, b⟩
  simp [Matrix.kroneckerMap_apply]

theorem one_conj {k : Type} [DecidableEq k] : (1 : Matrix k k ℂ).map star = 1 := Matrix.map_one _ (star_zero _) (star_one _)

theorem dissOf_conj (L : Matrix n n ℂ) : dissOf (L.map star) = (dissOf L).map star := by
  have h1 : (L.map star)ᴴ * L.map star = (Lᴴ * L).map star := by
    rw [conj_mul]
    rfl
  have h2 : (L.map star)ᵀ * conjM (L.map star) = (Lᵀ * conjM L).map star := by
    rw [conj_mul]
    rfl
  have h3 : conjM (L.map star) ⊗ₖ L.map star = (conjM L ⊗ₖ L).map star := by
    rw [kron_conj]
    rfl
  have h4 : ∀ A B C : Sup n, (A - (1 / 2 : ℂ) • B - (1 / 2 : ℂ) • C).map star = A.map star - (1 / 2 : ℂ) • B.map star - (1 / 2 : ℂ) • C.map star := by
    intro A B C
    have h : (starRingEnd ℂ) 2 = 2 := map_ofNat _ 2
    ext i j
    simp [h]
  unfold dissOf
  rw [h1, h2, h3, h4, kron_conj 1, kron_conj _ 1, one_conj]

omit [Fintype n] in
theorem supGen_conj (H : Matrix n n ℂ) (D : Sup n) :
    supGen ((-Complex.I) • (-H.map star)) (D.map star) = (supGen ((-Complex.I) • H) D).map star := by
  have h1 : ((-Complex.I) • (-H.map star) : Matrix n n ℂ) = ((-Complex.I) • H).map star := by
    ext i j
    simp
  have h2 : ∀ A B C : Sup n, (A + B + C).map star = A.map star + B.map star + C.map star := by
    intro A B C
    ext i j
    simp
  unfold supGen
  rw [h1, h2, kron_conj 1, kron_conj _ 1, one_conj]
  rfl

omit [Fintype n] in
theorem setEntry_conj (M : Matrix n n ℂ) (i j : n) (z : ℂ) : setEntry (M.map star) i j (star z) = (setEntry M i j z).map star := by
  ext a b
  simp only [setEntry, Matrix.of_apply, Matrix.map_apply]
  split <;> rfl

omit [Fintype n] [DecidableEq n] in
theorem foldl_conj {α : Type} (l : List α) (f g : Matrix n n ℂ → α → Matrix n n ℂ) (h : ∀ M a, f (M.map star) a = (g M a).map star)
    (M : Matrix n n ℂ) : l.foldl f (M.map star) = (l.foldl g M).map star := by
  induction l generalizing M with
  | nil => rfl
  | cons a l ih => rw [List.foldl_cons, List.foldl_cons, h, ih]

omit [Fintype n] in
theorem fill_conj (l : List n) (A : Matrix (Fin l.length) (Fin l.length) ℂ) : fillTarget l (A.map star) = (fillTarget l A).map star := by
  unfold fillTarget
  conv_lhs => rw [← Matrix.map_zero star (star_zero ℂ)]
  refine foldl_conj _ _ _ (fun M i => ?_) 0
  refine foldl_conj _ _ _ (fun M k => ?_) M
  exact setEntry_conj _ _ _ _

omit [Fintype n] in
theorem proj_conj (l : List n) : (projComp l).map star = projComp l := by
  unfold projComp
  conv_rhs => rw [← Matrix.map_zero star (star_zero ℂ)]
  refine (foldl_conj l _ _ (fun M k => ?_) 0).symm
  rw [← setEntry_conj, star_one]

theorem trace_conj {k : Type} [Fintype k] (A : Matrix k k ℂ) : (A.map star).trace.re = A.trace.re := by
  have : (A.map star).trace = star A.trace := by simp [Matrix.trace]
  rw [this]
  rfl

omit [Fintype n] [DecidableEq n] in
theorem unitarySup_conj (U : Matrix n n ℂ) : unitarySup (U.map star) = (unitarySup U).map star := by
  unfold unitarySup
  rw [kron_conj]
  rfl

theorem entFidSup_conj (cs : Option (List n)) (T : Matrix (CompIdx cs) (CompIdx cs) ℂ) (P : Sup n) :
    entFidSup cs (T.map star) (P.map star) = entFidSup cs T P := by
  cases cs with
  | none =>
    have : unitarySup (n := n) (T.map star)ᴴ * P.map star = (unitarySup (n := n) Tᴴ * P).map star := by
      rw [conj_mul, ← unitarySup_conj]
      rfl
    exact congrArg (fun z : ℝ => z / dim (n := n) none / dim (n := n) none) ((congrArg (fun M : Sup n => M.trace.re) this).trans (trace_conj _))
  | some l =>
    have : unitarySup (projComp l) * unitarySup (fillTarget l (T.map star)ᴴ) * P.map star =
        (unitarySup (projComp l) * unitarySup (fillTarget l Tᴴ) * P).map star := by
      rw [conj_mul, conj_mul, ← unitarySup_conj, ← unitarySup_conj, proj_conj, ← fill_conj]
      rfl
    exact congrArg (fun z : ℝ => z / dim (some l) / dim (some l)) ((congrArg (fun M : Sup n => M.trace.re) this).trans (trace_conj _))

omit [Fintype n] [DecidableEq n] in
theorem sum_conj (l : List (Sup n)) : (l.map fun A => A.map star).sum = l.sum.map star := by
  induction l with
  | nil =>
    ext i j
    simp
  | cons A l ih =>
    rw [List.map_cons, List.sum_cons, List.sum_cons, ih]
    ext i j
    simp

omit [Fintype n] [DecidableEq n] in
theorem finsum_conj {ι : Type} (s : Finset ι) (f : ι → Sup n) : (∑ l ∈ s, f l).map star = ∑ l ∈ s, (f l).map star := by
  ext i j
  simp [Matrix.sum_apply]

omit [Fintype n] [DecidableEq n] in
theorem backRow_diff (p : LPar n) : Differentiable ℝ (backRow p) :=
  differentiable_pi.mpr fun k => differentiable_pi.mp differentiable_id (Fin.cast (conj_length p).symm k)

omit [Fintype n] [DecidableEq n] in
theorem backRow_bump (p : LPar n) (v : Fin p.conjugated.ctrl.length → ℝ) (h : ℝ) (k : Fin p.conjugated.ctrl.length) :
    backRow p (v + h • (Pi.single k 1 : Fin p.conjugated.ctrl.length → ℝ)) = backRow p v + h • Pi.single (Fin.cast (conj_length p) k) 1 := by
  funext l
  simp [backRow, Pi.single_apply, Fin.ext_iff]

theorem GivenDiss.conjugated {p : LPar n} {N : Nat} {E : Fin N → (Fin p.ctrl.length → ℝ) → Sup n} (h : GivenDiss p N E) :
    GivenDiss p.conjugated N (conjDiss p E) := by
  cases h with
  | initial S hS hd hE =>
    subst hE
    refine .initial (S.map fun A => A.map star) (by simpa using hS) (by simp [LPar.conjugated, hd, Diss.conjugated]) ?_
    funext t v
    exact (sum_conj S).symm
  | lindblad Ls hL i hd hE =>
    subst hE
    refine .lindblad (Ls.map fun A => A.map star) (by simpa using hL) _ (by simp [LPar.conjugated, hd, Diss.conjugated]; rfl) ?_
    funext t v
    rw [List.map_map, show dissOf ∘ (fun A : Matrix n n ℂ => A.map star) = fun L => (dissOf L).map star from funext dissOf_conj]
    exact (sum_conj (Ls.map dissOf)).symm.trans (by rw [List.map_map]; rfl)
  | prefactor Ls hL i f f' hd w w' hf hf' hw hw' hE =>
    subst hE
    refine .prefactor (Ls.map fun A => A.map star) (by simpa using hL) _ f f' (by simp [LPar.conjugated, hd, Diss.conjugated]; rfl)
      (fun t l v => w t (Fin.cast (by simp) l) (backRow p v))
      (fun t k l v => w' t (Fin.cast (conj_length p) k) (Fin.cast (by simp) l) (backRow p v)) (fun U x => ?_) (fun U x => ?_) (fun t l => ?_)
      (fun t k l v => ?_) ?_
    · rw [← rows_back, hf]
      congr 1
      funext t
      exact List.ext_getElem (by simp) fun i h1 h2 => by simp
    · rw [← rows_back, hf']
      congr 1
      funext t
      refine List.ext_getElem (by simp [conj_length]) fun i h1 h2 => ?_
      rw [List.getElem_ofFn, List.getElem_ofFn]
      exact List.ext_getElem (by simp) fun i h1 h2 => by simp
    · exact (hw t _).comp (backRow_diff p)
    · have := hw' t (Fin.cast (conj_length p) k) (Fin.cast (by simp) l) (backRow p v)
      simpa only [backRow_bump] using this
    · funext t v
      show Matrix.map (∑ l, _) star = _
      rw [finsum_conj]
      refine (Fintype.sum_equiv (finCongr (by simp)) _ _ fun l => ?_).symm
      have : (Ls.map fun A => A.map star).get l = (Ls.get (Fin.cast (by simp) l)).map star := by simp
      rw [this, dissOf_conj]
      ext i j
      simp
  | function i L f f' hd E' hf hf' hE hE' =>
    refine .function _ _ _ _ (by simp [LPar.conjugated, hd, Diss.conjugated]; exact ⟨rfl, rfl, rfl, rfl⟩)
      (fun t k v => (E' t (Fin.cast (conj_length p) k) (backRow p v)).map star) (fun U x => ?_) (fun U x => ?_) (fun t => ?_) (fun t => ?_)
    · rw [← rows_back, hf, List.map_ofFn]
      rfl
    · rw [← rows_back, hf', List.map_ofFn]
      congr 1
      funext t
      refine List.ext_getElem (by simp [conj_length]) fun i h1 h2 => by simp
    · exact fun i j => (Complex.conjCLE.differentiable).comp ((hE t i j).comp (backRow_diff p))
    · intro k v i j
      have := hE' t (Fin.cast (conj_length p) k) (backRow p v) i j
      simp only [conjDiss, backRow_bump]
      exact (Complex.conjCLE.hasFDerivAt.comp_hasDerivAt 0 this)

theorem _root_.Verif.Cost.LExact.conjugated {p : LPar n} {τ : List ℝ} (h : LExact p τ) : LExact p.conjugated τ :=
  ⟨by simpa [LPar.conjugated] using h.ctrl, by simpa [LPar.conjugated] using h.drift, h.steps, h.method, h.expm, h.frechet, fun H hH => by
    obtain ⟨K, hK, rfl⟩ := List.mem_map.mp hH
    exact conj_hermitian (h.hermitian K hK)⟩

omit [Fintype n] in
theorem stepGen_conj (p : LPar n) {N : Nat} (hN : p.drift.length = N) (E : Fin N → (Fin p.ctrl.length → ℝ) → Sup n) (t : Fin N)
    (v : Fin p.conjugated.ctrl.length → ℝ) :
    Cost.stepGen p.conjugated (conjDiss p E) t v = (Cost.stepGen p E t (backRow p v)).map star := by
  unfold Cost.stepGen
  rw [← supGen_conj]
  congr 2
  have hd : p.conjugated.drift.getD t 0 = -(p.drift.getD t 0).map star := by
    have ht : t.1 < p.drift.length := hN ▸ t.2
    simp [LPar.conjugated, List.getD, List.getElem?_eq_getElem ht]
  have hs : ∑ k, (v k : ℂ) • p.conjugated.ctrl.get k = -(∑ k, (backRow p v k : ℂ) • p.ctrl.get k).map star := by
    rw [Fintype.sum_equiv (finCongr (conj_length p)) _ (fun k => -(((backRow p v k : ℂ) • p.ctrl.get k).map star)) fun k => ?_]
    · ext i j
      simp [Matrix.sum_apply]
    · have e : p.conjugated.ctrl.get k = -(p.ctrl.get (Fin.cast (conj_length p) k)).map star := by
        have hk : k.1 < (p.ctrl.map fun H => -H.map star).length := k.2
        exact List.getElem_map (fun H : Matrix n n ℂ => -H.map star) (h := hk)
      show (v k : ℂ) • p.conjugated.ctrl.get k = -(((v k : ℂ) • p.ctrl.get (Fin.cast (conj_length p) k)).map star)
      rw [e]
      ext i j
      simp
  rw [hd, hs]
  ext i j
  simp
  ring

theorem exp_map_star {k : Type} [Fintype k] [DecidableEq k] (x : ℝ) (G : Matrix k k ℂ) :
    NormedSpace.exp ((x : ℂ) • G.map star) = (NormedSpace.exp ((x : ℂ) • G)).map star := by
  have e : (x : ℂ) • G.map star = (((x : ℂ) • G)ᴴ)ᵀ := by
    ext i j
    simp
  rw [e, Matrix.exp_transpose, Matrix.exp_conjTranspose]
  rfl

theorem lindSteps_conj {p : LPar n} {τ : List ℝ} (h : LExact p τ) (E : Fin τ.length → (Fin p.ctrl.length → ℝ) → Sup n)
    (V : Fin τ.length → Fin p.conjugated.ctrl.length → ℝ) :
    lindSteps p.conjugated τ (conjDiss p E) V = (lindSteps p τ E fun t => backRow p (V t)).map fun P => P.map star := by
  unfold lindSteps
  rw [List.map_ofFn]
  congr 1
  funext t
  rw [stepGen_conj p h.drift, exp_map_star]
  rfl

theorem lindFinal_conj {p : LPar n} {τ : List ℝ} (h : LExact p τ) (E : Fin τ.length → (Fin p.ctrl.length → ℝ) → Sup n)
    (V : Fin τ.length → Fin p.conjugated.ctrl.length → ℝ) :
    lindFinal p.conjugated τ (conjDiss p E) V = (lindFinal p τ E fun t => backRow p (V t)).map star := by
  show (lindSteps p.conjugated τ (conjDiss p E) V).foldl (fun F P => P * F) (p.init.map star) =
    ((lindSteps p τ E _).foldl (fun F P => P * F) p.init).map star
  rw [lindSteps_conj h]
  generalize (lindSteps p τ E fun t => backRow p (V t)) = l
  generalize p.init = A
  induction l generalizing A with
  | nil => rfl
  | cons P l ih => rw [List.map_cons, List.foldl_cons, List.foldl_cons, ← conj_mul, ih]

/-- The amplitudes of the system as amplitudes of the conjugated system. -/
def thereRow (p : LPar n) (v : Fin p.ctrl.length → ℝ) : Fin p.conjugated.ctrl.length → ℝ := fun k => v (Fin.cast (conj_length p) k)

omit [Fintype n] [DecidableEq n] in
theorem rows_there (p : LPar n) {N : Nat} (V : Fin N → Fin p.ctrl.length → ℝ) : rowsOf (fun t => thereRow p (V t)) = rowsOf V :=
  (rows_back p fun t => thereRow p (V t)).symm

/-! ## The property -/

/-- **C175** The forward propagators of the conjugated open system are the complex conjugates. -/
theorem c175_propagators (p : LPar n) (τ : List ℝ) (h : LExact p τ) (E : Fin τ.length → (Fin p.ctrl.length → ℝ) → Sup n)
    (hE : GivenDiss p τ.length E) (V : Fin τ.length → Fin p.ctrl.length → ℝ) (x x' : Solver.Pulse) :
    ∃ f, p.fwd τ (rowsOf V) x = .ok f ∧ f.length = τ.length + 1 ∧ p.conjugated.fwd τ (rowsOf V) x' = .ok (f.map fun F => F.map star) := by
  obtain ⟨D, -, -, hD⟩ := hE.common h.ctrl
  obtain ⟨D', -, -, hD'⟩ := (GivenDiss.conjugated hE).common h.conjugated.ctrl
  obtain ⟨tr, -, a1, a2, -⟩ := lind_reads h V x (hD _ x).1 (hD _ x).2
  obtain ⟨tr', -, b1, b2, -⟩ := lind_reads h.conjugated (fun t => thereRow p (V t)) x' (hD' _ x').1 (hD' _ x').2
  rw [rows_there] at b1
  have e2 := a2.forward
  have e4 := b2.forward
  rw [lindSteps_conj h] at e4
  refine ⟨_, a1, by rw [e2.1]; simp [lindSteps], b1.trans (congrArg Except.ok ?_)⟩
  refine forward_unique e4 ⟨by rw [List.length_map, e2.1, List.length_map]; rfl, by rw [List.getElem?_map, e2.2.1]; rfl, fun i hi => ?_⟩
  obtain ⟨Q, q1, q2⟩ := e2.2.2 i (by rw [List.length_map] at hi; exact hi)
  refine ⟨Q.map star, by rw [List.getElem?_map, q1]; rfl, ?_⟩
  rw [List.getElem?_map, q2, List.getElem_map, ← conj_mul]
  rfl

/-- **C175** The infidelity with respect to the conjugated operation is the same. -/
theorem c175_costs (p : LPar n) (τ : List ℝ) (h : LExact p τ) (E : Fin τ.length → (Fin p.ctrl.length → ℝ) → Sup n)
    (hE : GivenDiss p τ.length E) (cs : Option (List n)) (T : Matrix (CompIdx cs) (CompIdx cs) ℂ)
    (V : Fin τ.length → Fin p.ctrl.length → ℝ) (x x' : Solver.Pulse) :
    ∃ c, lindCosts cs T p τ (rowsOf V) x = .ok c ∧ lindCosts cs (T.map star) p.conjugated τ (rowsOf V) x' = .ok c := by
  obtain ⟨-, -, b2, -⟩ := c98_total p τ h E hE cs T V x
  obtain ⟨-, -, d2, -⟩ := c98_total p.conjugated τ h.conjugated _ (GivenDiss.conjugated hE) cs (T.map star) (fun t => thereRow p (V t)) x'
  refine ⟨_, b2 V x, ?_⟩
  rw [← rows_there]
  refine (d2 _ x').trans ?_
  rw [lindFinal_conj h, entFidSup_conj]
  rfl

/-- **C175** The gradient is the same. -/
theorem c175_gradient (p : LPar n) (τ : List ℝ) (h : LExact p τ) (E : Fin τ.length → (Fin p.ctrl.length → ℝ) → Sup n)
    (hE : GivenDiss p τ.length E) (cs : Option (List n)) (T : Matrix (CompIdx cs) (CompIdx cs) ℂ)
    (V : Fin τ.length → Fin p.ctrl.length → ℝ) (x x' : Solver.Pulse) :
    ∃ g : Fin τ.length → Fin p.ctrl.length → ℝ, lindGrad cs T p τ (rowsOf V) x = .ok (rowsOf g) ∧
      lindGrad cs (T.map star) p.conjugated τ (rowsOf V) x' = .ok (rowsOf g) := by
  obtain ⟨a, b1, -, L, b3, b4⟩ := c98_total p τ h E hE cs T V x
  obtain ⟨r, d1, -, L', d3, d4⟩ := c98_total p.conjugated τ h.conjugated _ (GivenDiss.conjugated hE) cs (T.map star) (fun t => thereRow p (V t)) x'
  refine ⟨a, b1, ?_⟩
  rw [rows_there] at d1
  rw [d1]
  have hmix : ∀ v : Fin p.conjugated.ctrl.length → ℝ,
      mixRow (fun k l => if k.1 = l.1 then (1 : ℝ) else 0) (fun _ => 0) v = backRow p v := by
    intro v
    funext l
    simp only [mixRow, backRow, add_zero]
    rw [Finset.sum_eq_single (Fin.cast (conj_length p).symm l)]
    · simp
    · intro k _ hk
      have : ¬ k.1 = l.1 := fun e => hk (Fin.ext e)
      simp [this]
    · simp
  have key := grad_affine rfl (fun (k : Fin p.conjugated.ctrl.length) (l : Fin p.ctrl.length) => if k.1 = l.1 then (1 : ℝ) else 0) (fun _ => 0)
    (f := fun V => 1 - entFidSup cs T (lindFinal p τ E V)) (f' := fun V => 1 - entFidSup cs (T.map star) (lindFinal p.conjugated τ (conjDiss p E) V))
    (fun W => by
      simp only [hmix]
      rw [lindFinal_conj h, entFidSup_conj]
      rfl) (V := fun t => thereRow p (V t)) (by simp only [hmix]; exact b3) d3 b4 d4
  rw [← rows_there p a]
  congr 2
  funext t k
  refine (key t k).trans ?_
  rw [Finset.sum_eq_single (Fin.cast (conj_length p) k)]
  · simp [thereRow]
  · intro l _ hl
    have : ¬ k.1 = l.1 := fun e => hl (Fin.ext e.symm)
    simp [this]
  · simp

/-! ## Cases -/

/-- A decaying qubit with two controls and a decay rate which depends on the first amplitude. -/
example (V : Fin 3 → Fin 2 → ℝ) : ∃ (L : Lapack (Fin 2 × Fin 2)) (f : List (Sup (Fin 2))) (c : ℝ) (g : Fin 3 → Fin 2 → ℝ),
    let p := decayPar L (some decayPre) (some decayPre')
    let T : Matrix (Fin 2) (Fin 2) ℂ := !![1, 0; 0, Complex.I]
    p.fwd [1, 2, 3] (rowsOf V) [] = .ok f ∧ p.conjugated.fwd [1, 2, 3] (rowsOf V) [] = .ok (f.map fun F => F.map star) ∧
    lindCosts none T p [1, 2, 3] (rowsOf V) [] = .ok c ∧ lindCosts none (T.map star) p.conjugated [1, 2, 3] (rowsOf V) [] = .ok c ∧
    lindGrad none T p [1, 2, 3] (rowsOf V) [] = .ok (rowsOf g) ∧
    lindGrad none (T.map star) p.conjugated [1, 2, 3] (rowsOf V) [] = .ok (rowsOf g) := by
  obtain ⟨L, -, -, hE, hF⟩ := lapack_exists (Fin 2 × Fin 2)
  obtain ⟨f, f1, -, f2⟩ := c175_propagators _ _ (decay_exact hE hF) _ (decay_given L) V [] []
  obtain ⟨c, c1, c2⟩ := c175_costs _ _ (decay_exact hE hF) _ (decay_given L) none !![1, 0; 0, Complex.I] V [] []
  obtain ⟨g, g1, g2⟩ := c175_gradient _ _ (decay_exact hE hF) _ (decay_given L) none !![1, 0; 0, Complex.I] V [] []
  exact ⟨L, f, c, g, f1, f2, c1, c2, g1, g2⟩

end Verif.Sim
