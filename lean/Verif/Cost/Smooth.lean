import Verif.Cost.Sensitivity
import Verif.Operator.Duhamel

/-!
# C121: the infidelity is smooth, with explicit constants

Second differences of `OperationInfidelity` and `OperationNoiseInfidelity` (cost_functions.py:1171-1275 and 1310-1454) of closed
systems: gradients are Lipschitz continuous, small steps against the gradient reduce the infidelity and finite differences are close to
the gradient.
-/

namespace Verif.Cost
open Verif Verif.Operator Verif.Solver Matrix MeasureTheory

section
variable {𝔸 : Type*} [NormedRing 𝔸]

/-- Four corners of a square with sides of length `α` and `β`, whose second difference is at most the area. -/
structure Square (X Xa Xb Xab : 𝔸) (α β : ℝ) : Prop where
  n : ‖X‖ ≤ 1
  na : ‖Xa‖ ≤ 1
  nb : ‖Xb‖ ≤ 1
  nab : ‖Xab‖ ≤ 1
  a : ‖Xa - X‖ ≤ α
  a' : ‖Xab - Xb‖ ≤ α
  b : ‖Xb - X‖ ≤ β
  b' : ‖Xab - Xa‖ ≤ β
  ab : ‖Xab - Xa - Xb + X‖ ≤ α * β

theorem Square.mul {X Xa Xb Xab Y Ya Yb Yab : 𝔸} {α β α' β' : ℝ} (h : Square X Xa Xb Xab α β) (k : Square Y Ya Yb Yab α' β') :
    Square (X * Y) (Xa * Ya) (Xb * Yb) (Xab * Yab) (α + α') (β + β') := by
  have one : ∀ {x y : 𝔸}, ‖x‖ ≤ 1 → ‖y‖ ≤ 1 → ‖x * y‖ ≤ 1 := by
    intro x y hx hy
    exact (norm_mul_le _ _).trans (mul_le_one₀ hx (norm_nonneg _) hy)
  have two : ∀ {x x' y y' : 𝔸} {s t : ℝ}, ‖x‖ ≤ 1 → ‖y'‖ ≤ 1 → ‖x' - x‖ ≤ s → ‖y' - y‖ ≤ t → ‖x' * y' - x * y‖ ≤ s + t := by
    intro x x' y y' s t hx hy h1 h2
    have e : x' * y' - x * y = (x' - x) * y' + x * (y' - y) := by noncomm_ring
    rw [e]
    refine (norm_add_le _ _).trans (add_le_add ?_ ?_)
    · refine (norm_mul_le _ _).trans ?_
      nlinarith [norm_nonneg (x' - x), norm_nonneg y']
    · refine (norm_mul_le _ _).trans ?_
      nlinarith [norm_nonneg (y' - y), norm_nonneg x]
  have hmul : ∀ {x y : 𝔸} {s t : ℝ}, ‖x‖ ≤ s → ‖y‖ ≤ t → ‖x * y‖ ≤ s * t := by
    intro x y s t hx hy
    exact (norm_mul_le _ _).trans (mul_le_mul hx hy (norm_nonneg _) ((norm_nonneg _).trans hx))
  refine ⟨one h.n k.n, one h.na k.na, one h.nb k.nb, one h.nab k.nab, two h.n k.na h.a k.a, two h.nb k.nab h.a' k.a',
    two h.n k.nb h.b k.b, two h.na k.nab h.b' k.b', ?_⟩
  have e : Xab * Yab - Xa * Ya - Xb * Yb + X * Y =
      (Xab - Xa - Xb + X) * Yab + (Xa - X) * (Yab - Ya) + (Xb - X) * (Yab - Yb) + X * (Yab - Ya - Yb + Y) := by noncomm_ring
  rw [e]
  have h1 := hmul h.ab k.nab
  have h2 := hmul h.a k.b'
  have h3 := hmul h.b k.a'
  have h4 := hmul h.n k.ab
  refine (norm_add_le _ _).trans ?_
  refine (add_le_add_left ((norm_add_le _ _).trans (add_le_add_left (norm_add_le _ _) _)) _).trans ?_
  linarith

theorem Square.map {𝔹 : Type*} [NormedRing 𝔹] (φ : 𝔸 →+ 𝔹) (hφ : ∀ x, ‖φ x‖ ≤ ‖x‖) {X Xa Xb Xab : 𝔸} {α β : ℝ}
    (h : Square X Xa Xb Xab α β) : Square (φ X) (φ Xa) (φ Xb) (φ Xab) α β := by
  refine ⟨(hφ _).trans h.n, (hφ _).trans h.na, (hφ _).trans h.nb, (hφ _).trans h.nab, ?_, ?_, ?_, ?_, ?_⟩
  · rw [← map_sub]; exact (hφ _).trans h.a
  · rw [← map_sub]; exact (hφ _).trans h.a'
  · rw [← map_sub]; exact (hφ _).trans h.b
  · rw [← map_sub]; exact (hφ _).trans h.b'
  · rw [← map_sub, ← map_sub, ← map_add]; exact (hφ _).trans h.ab

theorem Square.mono {X Xa Xb Xab : 𝔸} {α β α' β' : ℝ} (h : Square X Xa Xb Xab α β) (ha : α ≤ α') (hb : β ≤ β') :
    Square X Xa Xb Xab α' β' := by
  have h1 : 0 ≤ α := (norm_nonneg _).trans h.a
  have h2 : 0 ≤ β := (norm_nonneg _).trans h.b
  exact ⟨h.n, h.na, h.nb, h.nab, h.a.trans ha, h.a'.trans ha, h.b.trans hb, h.b'.trans hb,
    h.ab.trans (mul_le_mul ha hb h2 (h1.trans ha))⟩

end

section
open scoped Matrix.Norms.L2Operator
variable {n : Type} [Fintype n] [DecidableEq n]

/-! ## Evolutions -/

theorem exp_square {A E W : Matrix n n ℂ} (hA : Aᴴ = -A) (hE : Eᴴ = -E) (hW : Wᴴ = -W) :
    Square (NormedSpace.exp A) (NormedSpace.exp (A + E)) (NormedSpace.exp (A + W)) (NormedSpace.exp (A + E + W)) ‖E‖ ‖W‖ := by
  let _ : NormedAlgebra ℝ (Matrix n n ℂ) := NormedAlgebra.restrictScalars ℝ ℂ _
  let _ : NormedAlgebra ℚ (Matrix n n ℂ) := NormedAlgebra.restrictScalars ℚ ℝ _
  have hadd : ∀ {X Y : Matrix n n ℂ}, Xᴴ = -X → Yᴴ = -Y → (X + Y)ᴴ = -(X + Y) := by
    intro X Y hX hY
    rw [Matrix.conjTranspose_add, hX, hY, neg_add]
  have hsm : ∀ {X : Matrix n n ℂ} (s : ℝ), Xᴴ = -X → (s • X)ᴴ = -(s • X) := by
    intro X s hX
    rw [Matrix.conjTranspose_smul, hX]
    simp
  have hu : ∀ {X : Matrix n n ℂ}, Xᴴ = -X → ‖NormedSpace.exp X‖ ≤ 1 := fun hX => norm_unitary_le (exp_skew_unitary hX)
  have hAE := hadd hA hE
  have hAW := hadd hA hW
  have hAEW := hadd hAE hW
  refine ⟨hu hA, hu hAE, hu hAW, hu hAEW, ?_, ?_, ?_, ?_, ?_⟩
  · exact (exp_lip hAE hA).trans (le_of_eq (by congr 1; abel))
  · exact (exp_lip hAEW hAW).trans (le_of_eq (by congr 1; abel))
  · exact (exp_lip hAW hA).trans (le_of_eq (by congr 1; abel))
  · exact (exp_lip hAEW hAE).trans (le_of_eq (by congr 1; abel))
  · have hexp : Continuous (NormedSpace.exp : Matrix n n ℂ → Matrix n n ℂ) := NormedSpace.exp_continuous
    have h1 := exp_sub_exp A (A + E)
    have h2 := exp_sub_exp (A + W) (A + W + E)
    have e : NormedSpace.exp (A + E + W) - NormedSpace.exp (A + E) - NormedSpace.exp (A + W) + NormedSpace.exp A =
        (NormedSpace.exp (A + W + E) - NormedSpace.exp (A + W)) - (NormedSpace.exp (A + E) - NormedSpace.exp A) := by
      rw [add_right_comm A E W]; abel
    rw [e, h1, h2, ← intervalIntegral.integral_sub (Continuous.intervalIntegrable (by fun_prop) 0 1)
      (Continuous.intervalIntegrable (by fun_prop) 0 1)]
    have hb := intervalIntegral.norm_integral_le_of_norm_le_const (a := (0 : ℝ)) (b := 1) (C := ‖E‖ * ‖W‖)
      (f := fun s : ℝ => NormedSpace.exp ((1 - s) • (A + W)) * (A + W + E - (A + W)) * NormedSpace.exp (s • (A + W + E)) -
        NormedSpace.exp ((1 - s) • A) * (A + E - A) * NormedSpace.exp (s • (A + E))) ?_
    · simpa using hb
    · intro s hs
      rw [Set.uIoc_of_le zero_le_one] at hs
      have hs0 : 0 ≤ s := hs.1.le
      have hs1 : 0 ≤ 1 - s := by linarith [hs.2]
      simp only [add_sub_cancel_left]
      have e : ∀ P Q R S : Matrix n n ℂ, P * E * Q - R * E * S = (P - R) * E * Q + R * E * (Q - S) := by
        intros; noncomm_ring
      rw [e]
      have k1 : ‖NormedSpace.exp ((1 - s) • (A + W)) - NormedSpace.exp ((1 - s) • A)‖ ≤ (1 - s) * ‖W‖ := by
        refine (exp_lip (hsm _ hAW) (hsm _ hA)).trans (le_of_eq ?_)
        rw [← smul_sub, add_sub_cancel_left, norm_smul, Real.norm_of_nonneg hs1]
      have hAWE := hadd hAW hE
      have k2 : ‖NormedSpace.exp (s • (A + W + E)) - NormedSpace.exp (s • (A + E))‖ ≤ s * ‖W‖ := by
        refine (exp_lip (hsm _ hAWE) (hsm _ hAE)).trans (le_of_eq ?_)
        rw [← smul_sub, norm_smul, Real.norm_of_nonneg hs0]
        congr 2
        abel
      have k3 := hu (hsm s hAWE)
      have k4 := hu (hsm (1 - s) hA)
      have mul3 : ∀ {P Q : Matrix n n ℂ} {x y : ℝ}, ‖P‖ ≤ x → ‖Q‖ ≤ y → ‖P * E * Q‖ ≤ x * ‖E‖ * y := by
        intro P Q x y hP hQ
        have hx := (norm_nonneg _).trans hP
        exact (norm_mul_le _ _).trans (mul_le_mul ((norm_mul_le _ _).trans (mul_le_mul_of_nonneg_right hP (norm_nonneg _))) hQ
          (norm_nonneg _) (by positivity))
      refine (norm_add_le _ _).trans ((add_le_add (mul3 k1 k3) (mul3 k4 k2)).trans (le_of_eq ?_))
      ring

theorem foldl_square {N : Nat} : ∀ (P Pa Pb Pab : Fin N → Matrix n n ℂ) (α β : Fin N → ℝ) (I Ia Ib Iab : Matrix n n ℂ) (x y : ℝ),
    (∀ t, Square (P t) (Pa t) (Pb t) (Pab t) (α t) (β t)) → Square I Ia Ib Iab x y →
    Square ((List.ofFn P).foldl (fun F P => P * F) I) ((List.ofFn Pa).foldl (fun F P => P * F) Ia)
      ((List.ofFn Pb).foldl (fun F P => P * F) Ib) ((List.ofFn Pab).foldl (fun F P => P * F) Iab) (x + ∑ t, α t) (y + ∑ t, β t) := by
  induction N with
  | zero => intro P Pa Pb Pab α β I Ia Ib Iab x y _ h; simpa using h
  | succ N ih =>
    intro P Pa Pb Pab α β I Ia Ib Iab x y hP h
    simp only [List.ofFn_succ, List.foldl_cons, Fin.sum_univ_succ]
    have := ih (fun t => P t.succ) _ _ _ _ _ _ _ _ _ _ _ (fun t => hP t.succ) ((hP 0).mul h)
    refine this.mono (le_of_eq ?_) (le_of_eq ?_) <;> ring

/-- The accumulated strength of the change `δ` of the amplitudes. -/
noncomputable def strength {a T : Nat} (σ : Fin T → ℝ) (C : Fin a → Matrix n n ℂ) (δ : Fin T → Fin a → ℝ) : ℝ :=
  ∑ t, ∑ c, |σ t| * ‖C c‖ * |δ t c|

theorem noisyFinal_square (p : SPar n n) (hN : List (Matrix n n ℂ)) (hd : ∀ H ∈ p.drift, H.IsHermitian)
    (hc : ∀ H ∈ p.ctrl, H.IsHermitian) (hn : ∀ H ∈ hN, H.IsHermitian) (hi : p.init ∈ Matrix.unitaryGroup n ℂ) (τ : List ℝ)
    (U D W : Fin (p.xTimes τ).length → Fin p.ctrl.length → ℝ) (z : Fin hN.length → Fin (p.xTimes τ).length → ℝ) :
    Square (noisyFinal p hN τ (rowsOf U) z) (noisyFinal p hN τ (rowsOf (U + D)) z) (noisyFinal p hN τ (rowsOf (U + W)) z)
      (noisyFinal p hN τ (rowsOf (U + D + W)) z) (strength (p.xTimes τ).get p.ctrl.get D) (strength (p.xTimes τ).get p.ctrl.get W) := by
  have hP : ‖p.init‖ ≤ 1 := norm_unitary_le hi
  have h0 : Square p.init p.init p.init p.init 0 0 := ⟨hP, hP, hP, hP, by simp, by simp, by simp, by simp, by simp⟩
  have hH : ∀ V : Fin (p.xTimes τ).length → Fin p.ctrl.length → ℝ, ∀ t, (∑ c, ((V t c : ℝ) : ℂ) • p.ctrl[c]).IsHermitian := by
    intro V t
    unfold Matrix.IsHermitian
    rw [Matrix.conjTranspose_sum]
    refine Finset.sum_congr rfl fun c _ => ?_
    have hj : (p.ctrl[c])ᴴ = p.ctrl[c] := hc _ (List.getElem_mem c.2)
    rw [Matrix.conjTranspose_smul, hj]
    simp
  have hskew : ∀ {H : Matrix n n ℂ} (σ : ℝ), H.IsHermitian → ((σ : ℂ) • (-Complex.I) • H)ᴴ = -((σ : ℂ) • (-Complex.I) • H) := by
    intro H σ hH
    rw [Matrix.conjTranspose_smul, skew_of_hermitian hH]
    simp
  have hadd : ∀ (V V' : Fin (p.xTimes τ).length → Fin p.ctrl.length → ℝ) (t : Fin (p.xTimes τ).length),
      noisyStep p hN τ (rowsOf (V + V')) z t = NormedSpace.exp
        ((((p.xTimes τ).get t : ℝ) : ℂ) • (-Complex.I) • (hamiltonian (p.drift.getD t 0) p.ctrl ((rowsOf V).getD t []) + ∑ j, ((z j t : ℝ) : ℂ) • hN[j])
          + (((p.xTimes τ).get t : ℝ) : ℂ) • (-Complex.I) • ∑ c, ((V' t c : ℝ) : ℂ) • p.ctrl[c]) := by
    intro V V' t
    unfold noisyStep
    congr 1
    rw [← smul_add, ← smul_add, rowsOf_get V t t.2, rowsOf_get (V + V') t t.2, hamiltonian_eq_sum _ _ _ (by simp),
      hamiltonian_eq_sum _ _ _ (by simp)]
    have hs : ∑ j : Fin p.ctrl.length, ((((List.ofFn ((V + V') ⟨t, t.2⟩)).getD j 0 : ℝ)) : ℂ) • p.ctrl[j] =
        ∑ j : Fin p.ctrl.length, ((((List.ofFn (V ⟨t, t.2⟩)).getD j 0 : ℝ)) : ℂ) • p.ctrl[j] +
          ∑ c, ((V' t c : ℝ) : ℂ) • p.ctrl[c] := by
      rw [← Finset.sum_add_distrib]
      refine Finset.sum_congr rfl fun c _ => ?_
      rw [← add_smul]
      congr 1
      simp
    rw [hs]
    congr 2
    abel
  have hstep : ∀ t, Square (noisyStep p hN τ (rowsOf U) z t) (noisyStep p hN τ (rowsOf (U + D)) z t)
      (noisyStep p hN τ (rowsOf (U + W)) z t) (noisyStep p hN τ (rowsOf (U + D + W)) z t)
      (∑ c, |(p.xTimes τ).get t| * ‖p.ctrl.get c‖ * |D t c|) (∑ c, |(p.xTimes τ).get t| * ‖p.ctrl.get c‖ * |W t c|) := by
    intro t
    have hb : ∀ V : Fin (p.xTimes τ).length → Fin p.ctrl.length → ℝ,
        ‖(((p.xTimes τ).get t : ℝ) : ℂ) • (-Complex.I) • ∑ c, ((V t c : ℝ) : ℂ) • p.ctrl[c]‖ ≤
          ∑ c, |(p.xTimes τ).get t| * ‖p.ctrl.get c‖ * |V t c| := by
      intro V
      rw [norm_smul, norm_smul]
      simp only [Complex.norm_real, norm_neg, Complex.norm_I, one_mul, Real.norm_eq_abs]
      refine (mul_le_mul_of_nonneg_left (norm_sum_le _ _) (abs_nonneg _)).trans (le_of_eq ?_)
      rw [Finset.mul_sum]
      refine Finset.sum_congr rfl fun c _ => ?_
      rw [norm_smul, Complex.norm_real, Real.norm_eq_abs]
      simp only [Fin.getElem_fin, List.get_eq_getElem]
      ring
    have hz := (noisyStep_unitary p hN hd hc hn τ (rowsOf U) z t).1
    refine Square.mono ?_ (hb D) (hb W)
    have e1 := hadd U D t
    have e2 := hadd U W t
    have e3 : noisyStep p hN τ (rowsOf (U + D + W)) z t = NormedSpace.exp
        ((((p.xTimes τ).get t : ℝ) : ℂ) • (-Complex.I) • (hamiltonian (p.drift.getD t 0) p.ctrl ((rowsOf U).getD t []) + ∑ j, ((z j t : ℝ) : ℂ) • hN[j])
          + (((p.xTimes τ).get t : ℝ) : ℂ) • (-Complex.I) • (∑ c, ((D t c : ℝ) : ℂ) • p.ctrl[c])
          + (((p.xTimes τ).get t : ℝ) : ℂ) • (-Complex.I) • ∑ c, ((W t c : ℝ) : ℂ) • p.ctrl[c]) := by
      rw [add_assoc U D W, hadd U (D + W) t]
      congr 1
      have hs : ∑ c, (((D + W) t c : ℝ) : ℂ) • p.ctrl[c] = ∑ c, ((D t c : ℝ) : ℂ) • p.ctrl[c] + ∑ c, ((W t c : ℝ) : ℂ) • p.ctrl[c] := by
        rw [← Finset.sum_add_distrib]
        refine Finset.sum_congr rfl fun c _ => ?_
        simp [add_smul]
      rw [hs]
      simp only [smul_add, add_assoc]
    rw [e1, e2, e3]
    exact exp_square (hskew _ hz) (hskew _ (hH D t)) (hskew _ (hH W t))
  have := foldl_square _ _ _ _ _ _ _ _ _ _ _ _ hstep h0
  rw [zero_add, zero_add] at this
  exact this

/-! ## Fidelities -/

theorem entFid_square (cl : Closest) (cs : Option (List n)) (hcs : ∀ l, cs = some l → l.Nodup) (mcu : Bool) (hm : mcu = false ∨ cs = none)
    {T Ta Tb Tab : Matrix (CompIdx cs) (CompIdx cs) ℂ} {α' β' : ℝ} (hT : Square T Ta Tb Tab α' β') {X Xa Xb Xab : Matrix n n ℂ} {α β : ℝ}
    (h : Square X Xa Xb Xab α β) :
    |entFid cl cs Tab Xab mcu - entFid cl cs Ta Xa mcu - entFid cl cs Tb Xb mcu + entFid cl cs T X mcu| ≤
      4 * ((α' + α) * (β' + β)) := by
  have hd := dim_pos cs
  let tr : Matrix (CompIdx cs) (CompIdx cs) ℂ →+ ℂ := AddMonoidHom.mk' (fun X => X.trace / (dim cs : ℂ)) fun X Y => by
    rw [Matrix.trace_add, add_div]
  have htr : ∀ X, ‖tr X‖ ≤ ‖X‖ := by
    intro X
    show ‖X.trace / (dim cs : ℂ)‖ ≤ _
    rw [norm_div]
    rcases hd.eq_or_lt with h0 | h0
    · rw [← h0]; simp
    · rw [Complex.norm_real, Real.norm_of_nonneg hd, div_le_iff₀ h0, mul_comm]
      exact trace_norm_le X
  let sub : Matrix n n ℂ →+ Matrix (CompIdx cs) (CompIdx cs) ℂ := AddMonoidHom.mk' (fun X => X.submatrix (sel cs) (sel cs)) fun X Y => rfl
  let adj : Matrix (CompIdx cs) (CompIdx cs) ℂ →+ Matrix (CompIdx cs) (CompIdx cs) ℂ := AddMonoidHom.mk' (fun X => Xᴴ) fun X Y =>
    Matrix.conjTranspose_add X Y
  have h0 := ((hT.map adj (fun x => (Matrix.l2_opNorm_conjTranspose x).le)).mul
    (h.map sub (fun x => norm_submatrix_le _ (sel_injective hcs) x))).map tr htr
  have h3 := (h0.mul (h0.map (starRingEnd ℂ).toAddMonoidHom (fun x => by simp))).ab
  have hv : ∀ (T : Matrix (CompIdx cs) (CompIdx cs) ℂ) (X : Matrix n n ℂ), ((entFid cl cs T X mcu : ℝ) : ℂ) =
      tr (adj T * sub X) * (starRingEnd ℂ) (tr (adj T * sub X)) := by
    intro T X
    rw [Complex.mul_conj, Complex.normSq_eq_norm_sq]
    show _ = ((‖(Tᴴ * X.submatrix (sel cs) (sel cs)).trace / (dim cs : ℂ)‖ ^ 2 : ℝ) : ℂ)
    rw [norm_div, Complex.norm_real, Real.norm_of_nonneg hd]
    congr 1
    unfold entFid
    rw [div_pow, sq (dim cs), div_div, truncTo_eq cl cs mcu hm]
  change ‖tr (adj Tab * sub Xab) * (starRingEnd ℂ) (tr (adj Tab * sub Xab)) - tr (adj Ta * sub Xa) * (starRingEnd ℂ) (tr (adj Ta * sub Xa)) -
    tr (adj Tb * sub Xb) * (starRingEnd ℂ) (tr (adj Tb * sub Xb)) + tr (adj T * sub X) * (starRingEnd ℂ) (tr (adj T * sub X))‖ ≤ _ at h3
  rw [← hv, ← hv, ← hv, ← hv, ← Complex.ofReal_sub, ← Complex.ofReal_sub, ← Complex.ofReal_add, Complex.norm_real, Real.norm_eq_abs] at h3
  refine h3.trans (le_of_eq ?_)
  ring

theorem Square.const {k : Type} [Fintype k] [DecidableEq k] {T : Matrix k k ℂ} (hT : T ∈ Matrix.unitaryGroup k ℂ) :
    Square T T T T 0 0 := by
  have h := norm_unitary_le hT
  exact ⟨h, h, h, h, by simp, by simp, by simp, by simp, by simp⟩

/-! ## From second differences to gradients -/

/-- A differentiable function of the amplitudes with gradient `g` whose second differences are bounded. -/
structure Bent {a T : Nat} (κ : ℝ) (w : Fin T → Fin a → ℝ) (I : (Fin T → Fin a → ℝ) → ℝ)
    (g : (Fin T → Fin a → ℝ) → Fin T → Fin a → ℝ) : Prop where
  nonneg : 0 ≤ κ
  weights : ∀ t c, 0 ≤ w t c
  second : ∀ U D W, |I (U + D + W) - I (U + D) - I (U + W) + I U| ≤ κ * ((∑ t, ∑ c, w t c * |D t c|) * ∑ t, ∑ c, w t c * |W t c|)
  deriv : ∀ U, ∃ L : (Fin T → Fin a → ℝ) →L[ℝ] ℝ, HasFDerivAt I L U ∧ ∀ V, L V = ∑ t, ∑ c, g U t c * V t c

variable {a T : Nat} {κ : ℝ} {w : Fin T → Fin a → ℝ} {I : (Fin T → Fin a → ℝ) → ℝ} {g : (Fin T → Fin a → ℝ) → Fin T → Fin a → ℝ}

theorem Bent.line (h : Bent κ w I g) (U V : Fin T → Fin a → ℝ) (s : ℝ) :
    HasDerivAt (fun x : ℝ => I (U + x • V)) (∑ t, ∑ c, g (U + s • V) t c * V t c) s := by
  obtain ⟨L, h1, h2⟩ := h.deriv (U + s • V)
  have hline : HasDerivAt (fun x : ℝ => U + x • V) V s := by
    simpa using ((hasDerivAt_id s).smul_const V).const_add U
  rw [← h2]
  exact h1.comp_hasDerivAt s hline

theorem Bent.slopes (h : Bent κ w I g) (U V W : Fin T → Fin a → ℝ) :
    |∑ t, ∑ c, g (U + W) t c * V t c - ∑ t, ∑ c, g U t c * V t c| ≤
      κ * ((∑ t, ∑ c, w t c * |V t c|) * ∑ t, ∑ c, w t c * |W t c|) := by
  have h1 := h.line (U + W) V 0
  have h2 := h.line U V 0
  simp only [zero_smul, add_zero] at h1 h2
  have h3 := h1.sub h2
  have hw : 0 ≤ ∑ t, ∑ c, w t c * |V t c| := Finset.sum_nonneg fun t _ => Finset.sum_nonneg fun c _ => mul_nonneg (h.weights t c) (abs_nonneg _)
  have hw' : 0 ≤ ∑ t, ∑ c, w t c * |W t c| := Finset.sum_nonneg fun t _ => Finset.sum_nonneg fun c _ => mul_nonneg (h.weights t c) (abs_nonneg _)
  have hb := h3.le_of_lip' (C := κ * ((∑ t, ∑ c, w t c * |V t c|) * ∑ t, ∑ c, w t c * |W t c|))
    (mul_nonneg h.nonneg (mul_nonneg hw hw')) (Filter.Eventually.of_forall fun x => ?_)
  · simpa using hb
  · have k := h.second U (x • V) W
    have e : ∑ t, ∑ c, w t c * |(x • V) t c| = |x| * ∑ t, ∑ c, w t c * |V t c| := by
      rw [Finset.mul_sum]
      refine Finset.sum_congr rfl fun t _ => ?_
      rw [Finset.mul_sum]
      refine Finset.sum_congr rfl fun c _ => ?_
      rw [Pi.smul_apply, Pi.smul_apply, smul_eq_mul, abs_mul]
      ring
    rw [e] at k
    simp only [Pi.sub_apply, zero_smul, add_zero, sub_zero, Real.norm_eq_abs]
    have e2 : U + W + x • V = U + x • V + W := by abel
    rw [e2]
    calc |I (U + x • V + W) - I (U + x • V) - (I (U + W) - I U)|
        = |I (U + x • V + W) - I (U + x • V) - I (U + W) + I U| := by congr 1; ring
      _ ≤ _ := k
      _ = _ := by ring

/-- The gradient is Lipschitz continuous. -/
theorem Bent.lipschitz (h : Bent κ w I g) (U V : Fin T → Fin a → ℝ) (t : Fin T) (c : Fin a) :
    |g U t c - g V t c| ≤ κ * (w t c * ∑ t, ∑ c, w t c * |U t c - V t c|) := by
  have k := h.slopes V (unitAmp t c) (U - V)
  have e : ∀ f : Fin T → Fin a → ℝ, ∑ t', ∑ c', f t' c' * unitAmp t c t' c' = f t c := by
    intro f
    rw [Finset.sum_eq_single t, Finset.sum_eq_single c]
    · simp [unitAmp]
    · intro b _ hb; simp [unitAmp, hb]
    · simp
    · intro b _ hb
      exact Finset.sum_eq_zero fun k _ => by simp [unitAmp, hb]
    · simp
  have e' : ∑ t', ∑ c', w t' c' * |unitAmp t c t' c'| = w t c := by
    rw [← e w]
    refine Finset.sum_congr rfl fun t' _ => Finset.sum_congr rfl fun c' _ => ?_
    congr 1
    unfold unitAmp
    by_cases h1 : t' = t
    · subst h1
      by_cases h2 : c' = c
      · subst h2; simp
      · simp [h2]
    · simp [h1]
  rw [e, e, e', add_sub_cancel] at k
  exact k

/-- The infidelity is close to its linear approximation. -/
theorem Bent.taylor (h : Bent κ w I g) (U W : Fin T → Fin a → ℝ) :
    |I (U + W) - I U - ∑ t, ∑ c, g U t c * W t c| ≤ κ / 2 * (∑ t, ∑ c, w t c * |W t c|) ^ 2 := by
  set S := ∑ t, ∑ c, w t c * |W t c| with hS
  set G := ∑ t, ∑ c, g U t c * W t c with hG
  have hsl : ∀ x : ℝ, 0 ≤ x → |∑ t, ∑ c, g (U + x • W) t c * W t c - G| ≤ κ * S ^ 2 * x := by
    intro x hx
    refine (h.slopes U W (x • W)).trans (le_of_eq ?_)
    have e : ∑ t, ∑ c, w t c * |(x • W) t c| = x * S := by
      rw [hS, Finset.mul_sum]
      refine Finset.sum_congr rfl fun t _ => ?_
      rw [Finset.mul_sum]
      refine Finset.sum_congr rfl fun c _ => ?_
      rw [Pi.smul_apply, Pi.smul_apply, smul_eq_mul, abs_mul, abs_of_nonneg hx]
      ring
    rw [e, ← hS]
    ring
  have hq : ∀ k x : ℝ, HasDerivAt (fun x : ℝ => k * x ^ 2) (k * (2 * x)) x := by
    intro k x
    simpa using (hasDerivAt_pow 2 x).const_mul k
  have up : AntitoneOn (fun x : ℝ => I (U + x • W) - x * G - κ * S ^ 2 / 2 * x ^ 2) (Set.Icc 0 1) := by
    have hder : ∀ x : ℝ, HasDerivAt (fun x : ℝ => I (U + x • W) - x * G - κ * S ^ 2 / 2 * x ^ 2)
        (∑ t, ∑ c, g (U + x • W) t c * W t c - G - κ * S ^ 2 / 2 * (2 * x)) x := fun x =>
      ((h.line U W x).sub (hasDerivAt_mul_const G)).sub (hq _ x)
    refine antitoneOn_of_deriv_nonpos (convex_Icc 0 1) (fun x _ => (hder x).continuousAt.continuousWithinAt)
      (fun x _ => (hder x).differentiableAt.differentiableWithinAt) fun x hx => ?_
    rw [interior_Icc] at hx
    rw [(hder x).deriv]
    have := (abs_le.mp (hsl x hx.1.le)).2
    linarith
  have down : MonotoneOn (fun x : ℝ => I (U + x • W) - x * G + κ * S ^ 2 / 2 * x ^ 2) (Set.Icc 0 1) := by
    have hder : ∀ x : ℝ, HasDerivAt (fun x : ℝ => I (U + x • W) - x * G + κ * S ^ 2 / 2 * x ^ 2)
        (∑ t, ∑ c, g (U + x • W) t c * W t c - G + κ * S ^ 2 / 2 * (2 * x)) x := fun x =>
      ((h.line U W x).sub (hasDerivAt_mul_const G)).add (hq _ x)
    refine monotoneOn_of_deriv_nonneg (convex_Icc 0 1) (fun x _ => (hder x).continuousAt.continuousWithinAt)
      (fun x _ => (hder x).differentiableAt.differentiableWithinAt) fun x hx => ?_
    rw [interior_Icc] at hx
    rw [(hder x).deriv]
    have := (abs_le.mp (hsl x hx.1.le)).1
    linarith
  have k1 := up (Set.left_mem_Icc.mpr zero_le_one) (Set.right_mem_Icc.mpr zero_le_one) zero_le_one
  have k2 := down (Set.left_mem_Icc.mpr zero_le_one) (Set.right_mem_Icc.mpr zero_le_one) zero_le_one
  simp only [zero_smul, add_zero, one_smul, zero_mul, one_mul, sub_zero, one_pow, mul_one] at k1 k2
  rw [abs_le]
  constructor <;> nlinarith

/-- Small steps against the gradient reduce the infidelity. -/
theorem Bent.descent (h : Bent κ w I g) (U : Fin T → Fin a → ℝ) (η : ℝ) (hη : 0 ≤ η) (hs : η * (κ * ∑ t, ∑ c, w t c ^ 2) ≤ 1) :
    I (U - η • g U) ≤ I U - η / 2 * ∑ t, ∑ c, g U t c ^ 2 := by
  have k := (abs_le.mp (h.taylor U (-(η • g U)))).2
  rw [← sub_eq_add_neg] at k
  have e1 : ∑ t, ∑ c, g U t c * (-(η • g U)) t c = -(η * ∑ t, ∑ c, g U t c ^ 2) := by
    rw [Finset.mul_sum, ← Finset.sum_neg_distrib]
    refine Finset.sum_congr rfl fun t _ => ?_
    rw [Finset.mul_sum, ← Finset.sum_neg_distrib]
    refine Finset.sum_congr rfl fun c _ => ?_
    simp only [Pi.neg_apply, Pi.smul_apply, smul_eq_mul]
    ring
  have e2 : (∑ t, ∑ c, w t c * |(-(η • g U)) t c|) ^ 2 ≤ (∑ t, ∑ c, w t c ^ 2) * (η ^ 2 * ∑ t, ∑ c, g U t c ^ 2) := by
    rw [← Fintype.sum_prod_type' (f := fun t c => w t c * |(-(η • g U)) t c|), ← Fintype.sum_prod_type' (f := fun t c => w t c ^ 2),
      ← Fintype.sum_prod_type' (f := fun t c => g U t c ^ 2), Finset.mul_sum]
    refine (Finset.sum_mul_sq_le_sq_mul_sq _ _ _).trans (le_of_eq ?_)
    congr 1
    refine Finset.sum_congr rfl fun x _ => ?_
    rw [sq_abs]
    simp only [Pi.neg_apply, Pi.smul_apply, smul_eq_mul]
    ring
  have hg : 0 ≤ ∑ t, ∑ c, g U t c ^ 2 := Finset.sum_nonneg fun t _ => Finset.sum_nonneg fun c _ => sq_nonneg _
  rw [e1] at k
  set G := ∑ t, ∑ c, g U t c ^ 2
  set S := ∑ t, ∑ c, w t c ^ 2
  have k2 := mul_le_mul_of_nonneg_left e2 (div_nonneg h.nonneg zero_le_two)
  have k3 : κ / 2 * (S * (η ^ 2 * G)) ≤ η / 2 * G := by
    have := mul_le_mul_of_nonneg_right hs (mul_nonneg hη hg)
    nlinarith
  linarith

/-- A cost which is never negative has a small gradient wherever it is small. -/
theorem Bent.small (h : Bent κ w I g) (h0 : ∀ U, 0 ≤ I U) (U : Fin T → Fin a → ℝ) :
    ∑ t, ∑ c, g U t c ^ 2 ≤ 2 * (κ * ∑ t, ∑ c, w t c ^ 2) * I U := by
  have hS : 0 ≤ κ * ∑ t, ∑ c, w t c ^ 2 :=
    mul_nonneg h.nonneg (Finset.sum_nonneg fun t _ => Finset.sum_nonneg fun c _ => sq_nonneg _)
  have hd := h.descent U
  set G := ∑ t, ∑ c, g U t c ^ 2
  set S := κ * ∑ t, ∑ c, w t c ^ 2
  rcases hS.eq_or_lt with hz | hpos
  · rw [← hz, mul_zero, zero_mul]
    by_contra hG
    rw [not_le] at hG
    have k := hd (2 * (I U + 1) / G) (div_nonneg (by linarith [h0 U]) hG.le) (by rw [← hz, mul_zero]; exact zero_le_one)
    have e : 2 * (I U + 1) / G / 2 * G = I U + 1 := by field_simp
    linarith [h0 (U - (2 * (I U + 1) / G) • g U)]
  · have k := hd (1 / S) (by positivity) (by rw [one_div_mul_cancel hpos.ne'])
    have k2 := (h0 _).trans k
    have e : 1 / S / 2 * G = G / (2 * S) := by field_simp
    rw [e, sub_nonneg, div_le_iff₀ (by positivity)] at k2
    linarith

/-! ## The property -/

/-- Specification: a cost `I` of the amplitudes with gradient `g` is smooth with weights `w` and constant `κ`: the gradient is Lipschitz
continuous, the cost stays close to its linear approximation, and a step against the gradient whose width `η` is at most the inverse of
`κ ∑ w²` reduces the cost by at least `η / 2` times the squared length of the gradient.  The cost is not negative, and its gradient is
small where the cost is small. -/
structure SmoothCost {a T : Nat} (κ : ℝ) (w : Fin T → Fin a → ℝ) (I : (Fin T → Fin a → ℝ) → ℝ)
    (g : (Fin T → Fin a → ℝ) → Fin T → Fin a → ℝ) : Prop where
  lipschitz : ∀ U V t c, |g U t c - g V t c| ≤ κ * (w t c * ∑ t, ∑ c, w t c * |U t c - V t c|)
  linear : ∀ U V, |I V - I U - ∑ t, ∑ c, g U t c * (V t c - U t c)| ≤ κ / 2 * (∑ t, ∑ c, w t c * |V t c - U t c|) ^ 2
  descent : ∀ U η, 0 ≤ η → η * (κ * ∑ t, ∑ c, w t c ^ 2) ≤ 1 → I (U - η • g U) ≤ I U - η / 2 * ∑ t, ∑ c, g U t c ^ 2
  small : ∀ U, 0 ≤ I U ∧ ∑ t, ∑ c, g U t c ^ 2 ≤ 2 * (κ * ∑ t, ∑ c, w t c ^ 2) * I U

theorem Bent.smooth (h : Bent κ w I g) (h0 : ∀ U, 0 ≤ I U) : SmoothCost κ w I g :=
  ⟨h.lipschitz, fun U V => by simpa using h.taylor U (V - U), h.descent, fun U => ⟨h0 U, h.small h0 U⟩⟩

/-- **C121** (closed system) `OperationInfidelity`: the gradient returned by `grad` is Lipschitz continuous in the amplitudes, with the
constants `4 |τ_t| ‖H_c‖ |τ_t'| ‖H_c'‖`. -/
theorem c121_operation (p : SPar n n) (τ : List ℝ) (cl : Closest) (cs : Option (List n)) (T : Matrix (CompIdx cs) (CompIdx cs) ℂ)
    (mcu : Bool) (hs : NoisySystem p τ [] cs T mcu false) (happ : p.approx = .none) (hF : p.L.FrechetOk)
    (hreach : ∀ U : Fin (p.xTimes τ).length → Fin p.ctrl.length → ℝ, ∃ y, ampsOf p.cfg τ y = some (rowsOf U)) :
    ∃ (I : (Fin (p.xTimes τ).length → Fin p.ctrl.length → ℝ) → ℝ)
      (g : (Fin (p.xTimes τ).length → Fin p.ctrl.length → ℝ) → Fin (p.xTimes τ).length → Fin p.ctrl.length → ℝ),
      (∀ U s, Ready p τ (rowsOf U) s → (costOn (opCosts cl cs T mcu) p.cfg s).1 = .ok (I U)) ∧
      (∀ U s, Ready p τ (rowsOf U) s →
        (gradOn (fun tr => opGrad cl cs T mcu tr.fwd tr.dP tr.rev) p.cfg s).1 = .ok (rowsOf (g U))) ∧
      SmoothCost 4 (fun t c => |(p.xTimes τ).get t| * ‖p.ctrl.get c‖) I g := by
  have hcs : cs ≠ some [] := by
    rintro rfl
    exact (hs.states.some : Fin 0).elim0
  have htot := fun U => c93_operation_total p τ hs.valid hs.stable hs.method happ hs.expm hF hs.times hreach cl cs hcs mcu hs.plain T U
  choose g h1 h2 L h3 h4 using htot
  have hT : T ∈ Matrix.unitaryGroup (CompIdx cs) ℂ := hs.target.resolve_left (by simp)
  refine ⟨fun U => 1 - entFid cl cs T (p.final τ (rowsOf U)) mcu, g, fun U s hr => h2 U U s hr, h1,
    Bent.smooth ⟨by norm_num, fun t c => by positivity, fun U D W => ?_, fun U => ⟨L U, h3 U, h4 U⟩⟩ fun U => ?_⟩
  swap
  · have := (traceInfidelity_range cl cs hs.states hs.distinct T mcu false hs.plain hs.target p [] τ hs.valid hs.drift hs.ctrl hs.noise hs.init
      (rowsOf U) 0).1
    simpa [traceInfidelity, clean_final p τ hs.method hs.expm []] using this
  have k := entFid_square cl cs hs.distinct mcu hs.plain (Square.const hT)
    (noisyFinal_square p [] hs.drift hs.ctrl hs.noise hs.init τ U D W 0)
  simp only [clean_final p τ hs.method hs.expm []]
  rw [← abs_neg]
  refine (le_of_eq ?_).trans (k.trans (le_of_eq ?_))
  · congr 1; ring
  · simp only [strength, zero_add]

/-- **C121** (noise) The same for `OperationNoiseInfidelity` with every number of noise traces; if systematic errors are neglected, the
constant is four times as large because the target moves as well. -/
theorem c121_noise (p : SPar n n) (τ : List ℝ) (cl : Closest) (cs : Option (List n)) (T : Matrix (CompIdx cs) (CompIdx cs) ℂ)
    (mcu nse : Bool) (M : MC n n) (hs : NoisySystem p τ M.hNoise cs T mcu nse) (happ : p.approx = .none) (hF : p.L.FrechetOk)
    (hreach : ∀ U : Fin (p.xTimes τ).length → Fin p.ctrl.length → ℝ, ∃ y, ampsOf p.cfg τ y = some (rowsOf U))
    (hM : Sampled M p τ) (y x : Pulse) :
    ∃ (I : (Fin (p.xTimes τ).length → Fin p.ctrl.length → ℝ) → ℝ)
      (g : (Fin (p.xTimes τ).length → Fin p.ctrl.length → ℝ) → Fin (p.xTimes τ).length → Fin p.ctrl.length → ℝ),
      (∀ U, mcCosts cl cs T mcu nse M (p.xTimes τ) y x (rowsOf U) = .ok (I U)) ∧
      (∀ U, mcGrad cl cs T mcu nse M (p.xTimes τ) y x (rowsOf U) = .ok (rowsOf (g U))) ∧
      SmoothCost (if nse then 16 else 4) (fun t c => |(p.xTimes τ).get t| * ‖p.ctrl.get c‖) I g := by
  have hcs : cs ≠ some [] := by
    rintro rfl
    exact (hs.states.some : Fin 0).elim0
  have htot := fun U => c93_noise_total p τ hs.valid hs.stable hs.method happ hs.expm hF hs.times hreach M hM cl cs hcs mcu nse hs.plain T
    y x U
  choose g h1 h2 L h3 h4 using htot
  refine ⟨_, g, h2 0, h1, Bent.smooth ⟨by split <;> norm_num, fun t c => by positivity, fun U D W => ?_, fun U => ⟨L U, h3 U, h4 U⟩⟩ fun U => ?_⟩
  swap
  · unfold noiseInfidelity
    refine div_nonneg (Finset.sum_nonneg fun k _ => ?_) (Nat.cast_nonneg _)
    simp only [noisy_final p τ hs.valid hs.method hs.expm, clean_final p τ hs.method hs.expm M.hNoise]
    exact (traceInfidelity_range cl cs hs.states hs.distinct T mcu nse hs.plain hs.target p M.hNoise τ hs.valid hs.drift hs.ctrl hs.noise
      hs.init (rowsOf U) (traceOf _ _ M.samples k)).1
  have hK : (0 : ℝ) < M.nTraces := by exact_mod_cast hM.some_trace
  have hsq := fun z => noisyFinal_square p M.hNoise hs.drift hs.ctrl hs.noise hs.init τ U D W z
  have k : ∀ k : Fin M.nTraces, |(1 - entFid cl cs (if nse then truncTo cl cs mcu (p.final τ (rowsOf (U + D + W))) else T)
        ((p.noisy M.hNoise M.samples k).final τ (rowsOf (U + D + W))) mcu) -
      (1 - entFid cl cs (if nse then truncTo cl cs mcu (p.final τ (rowsOf (U + D))) else T)
        ((p.noisy M.hNoise M.samples k).final τ (rowsOf (U + D))) mcu) -
      (1 - entFid cl cs (if nse then truncTo cl cs mcu (p.final τ (rowsOf (U + W))) else T)
        ((p.noisy M.hNoise M.samples k).final τ (rowsOf (U + W))) mcu) +
      (1 - entFid cl cs (if nse then truncTo cl cs mcu (p.final τ (rowsOf U)) else T)
        ((p.noisy M.hNoise M.samples k).final τ (rowsOf U)) mcu)| ≤
      (if nse then 16 else 4) * (strength (p.xTimes τ).get p.ctrl.get D * strength (p.xTimes τ).get p.ctrl.get W) := by
    intro k
    simp only [noisy_final p τ hs.valid hs.method hs.expm, clean_final p τ hs.method hs.expm M.hNoise]
    rw [← abs_neg]
    cases nse with
    | false =>
      have hT : T ∈ Matrix.unitaryGroup (CompIdx cs) ℂ := hs.target.resolve_left (by simp)
      have k := entFid_square cl cs hs.distinct mcu hs.plain (Square.const hT) (hsq (traceOf _ _ M.samples k))
      refine (le_of_eq ?_).trans (k.trans (le_of_eq ?_))
      · congr 1; simp; ring
      · simp
    | true =>
      let sub : Matrix n n ℂ →+ Matrix (CompIdx cs) (CompIdx cs) ℂ :=
        AddMonoidHom.mk' (fun X => X.submatrix (sel cs) (sel cs)) fun X Y => rfl
      have k := entFid_square cl cs hs.distinct mcu hs.plain
        ((hsq 0).map sub (fun x => norm_submatrix_le _ (sel_injective hs.distinct) x)) (hsq (traceOf _ _ M.samples k))
      refine (le_of_eq ?_).trans (k.trans (le_of_eq ?_))
      · congr 1
        simp only [if_true, truncTo_eq cl cs mcu hs.plain]
        change _ = entFid cl cs (Matrix.submatrix _ _ _) _ mcu - entFid cl cs (Matrix.submatrix _ _ _) _ mcu -
          entFid cl cs (Matrix.submatrix _ _ _) _ mcu + entFid cl cs (Matrix.submatrix _ _ _) _ mcu
        ring
      · simp
        ring
  unfold noiseInfidelity
  rw [← sub_div, ← sub_div, ← add_div, abs_div, abs_of_pos hK, div_le_iff₀ hK, ← Finset.sum_sub_distrib, ← Finset.sum_sub_distrib,
    ← Finset.sum_add_distrib]
  refine (Finset.abs_sum_le_sum_abs _ _).trans ((Finset.sum_le_card_nsmul _ _ _ fun i _ => k i).trans (le_of_eq ?_))
  simp only [Finset.card_univ, Fintype.card_fin, nsmul_eq_mul, strength]
  ring

/-- `c121_operation` applies: every pulse for a qubit with two controls and steps of lengths 1, 2 and 3. A step against the gradient of width
`η` reduces the infidelity if `η` is small enough. -/
example (cl : Closest) : ∃ (L : Lapack (Fin 2)) (I : (Fin 3 → Fin 2 → ℝ) → ℝ) (g : (Fin 3 → Fin 2 → ℝ) → Fin 3 → Fin 2 → ℝ) (b : ℝ), 0 < b ∧
    (∀ U, (costOn (opCosts cl none 1 false) (qubitPar L .none true).cfg
      (fresh (qubitPar L .none true).cfg [1, 2, 3] (rowsOf U))).1 = .ok (I U)) ∧
    (∀ U, (gradOn (fun tr => opGrad cl none 1 false tr.fwd tr.dP tr.rev) (qubitPar L .none true).cfg
      (fresh (qubitPar L .none true).cfg [1, 2, 3] (rowsOf U))).1 = .ok (rowsOf (g U))) ∧
    ∀ U η, 0 ≤ η → η ≤ b → I (U - η • g U) ≤ I U - η / 2 * ∑ t, ∑ c, g U t c ^ 2 := by
  obtain ⟨L, -, -, hE, hF⟩ := Solver.lapack_exists (Fin 2)
  have ha := fun V : Fin 3 → Fin 2 → ℝ => qubitPar_amps L .none true _ (rowsOf_shape V).1 (rowsOf_shape V).2
  obtain ⟨I, g, h1, h2, h3⟩ := c121_operation (qubitPar L .none true) [1, 2, 3] cl none 1 false (Ex117.system hE [] (by simp)) rfl hF
    (fun V => ⟨rowsOf V, ha V⟩)
  set S : ℝ := ∑ t : Fin 3, ∑ c : Fin 2, (|([1, 2, 3] : List ℝ).get t| * ‖(qubitPar L .none true).ctrl.get c‖) ^ 2 with hS
  have hS0 : 0 ≤ S := Finset.sum_nonneg fun t _ => Finset.sum_nonneg fun c _ => sq_nonneg _
  refine ⟨L, I, g, 1 / (4 * S + 1), by positivity, fun U => h1 U _ (ready_fresh _ _ _ _ (ha U)),
    fun U => h2 U _ (ready_fresh _ _ _ _ (ha U)), fun U η hη hb => h3.descent U η hη ?_⟩
  rw [le_div_iff₀ (by positivity)] at hb
  show η * (4 * S) ≤ 1
  nlinarith

/-- `c121_noise` applies, with and without systematic errors: two traces of noise. -/
example (cl : Closest) (nse : Bool) : ∃ (L : Lapack (Fin 2)) (g : (Fin 3 → Fin 2 → ℝ) → Fin 3 → Fin 2 → ℝ),
    (∀ U, mcGrad cl none 1 false nse (Ex117.mc L) [1, 2, 3] [] [] (rowsOf U) = .ok (rowsOf (g U))) ∧
    ∀ U V t c, |g U t c - g V t c| ≤ (if nse then 16 else 4) * (|([1, 2, 3] : List ℝ).get t| * ‖(qubitPar L .none true).ctrl.get c‖ *
      ∑ t, ∑ c, |([1, 2, 3] : List ℝ).get t| * ‖(qubitPar L .none true).ctrl.get c‖ * |U t c - V t c|) := by
  obtain ⟨L, -, -, hE, hF⟩ := Solver.lapack_exists (Fin 2)
  have ha := fun V : Fin 3 → Fin 2 → ℝ => qubitPar_amps L .none true _ (rowsOf_shape V).1 (rowsOf_shape V).2
  obtain ⟨I, g, -, h2, h3⟩ := c121_noise (qubitPar L .none true) [1, 2, 3] cl none 1 false nse (Ex117.mc L)
    { Ex117.system hE _ (qubit_system hE).noise with target := Or.inr (one_mem _) } rfl hF (fun V => ⟨rowsOf V, ha V⟩)
    ⟨rfl, rfl, rfl, rfl, rfl, rfl, by simp [Ex117.mc]⟩ [] []
  exact ⟨L, g, h2, h3.lipschitz⟩

end
end Verif.Cost
