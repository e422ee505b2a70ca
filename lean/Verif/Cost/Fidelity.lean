import Mathlib.Analysis.SpecialFunctions.Trigonometric.Deriv
import Verif.Cost.Chain
import Verif.Operator.ClosestUnitary

/-!
# C43, C46, C47: values of the entanglement fidelity
-/

namespace Verif.Cost
open Verif Verif.Operator Verif.Solver Matrix
open scoped Kronecker

section
variable {n m : Type} [Fintype n] [DecidableEq n]

/-! ## C43 -/

/-- The squared Frobenius distance of `V` from the multiple `z W` of a unitary. -/
theorem frobSq_multiple {k : Type} [Fintype k] [DecidableEq k] (V W : Matrix k k ℂ) (hW : W ∈ Matrix.unitaryGroup k ℂ)
    (hk : 0 < Fintype.card k) :
    frobSq V (((Wᴴ * V).trace / (Fintype.card k : ℂ)) • W) =
      (Vᴴ * V).trace.re - ‖(Wᴴ * V).trace‖ ^ 2 / Fintype.card k := by
  set τ := (Wᴴ * V).trace with hτ
  set d : ℂ := (Fintype.card k : ℂ) with hd
  have hd0 : (Fintype.card k : ℝ) ≠ 0 := by positivity
  have h1 : (Vᴴ * W).trace = star τ := by
    rw [hτ, ← Matrix.trace_conjTranspose, Matrix.conjTranspose_mul, Matrix.conjTranspose_conjTranspose]
  have h2 : (Wᴴ * W).trace = d := by
    rw [conjTranspose_mul_unitary hW, Matrix.trace_one]
  have h3 : ((V - (τ / d) • W)ᴴ * (V - (τ / d) • W)).trace =
      (Vᴴ * V).trace - (τ / d) * star τ - star (τ / d) * τ + star (τ / d) * (τ / d) * d := by
    rw [Matrix.conjTranspose_sub, Matrix.conjTranspose_smul, Matrix.sub_mul, Matrix.mul_sub, Matrix.mul_sub,
      Matrix.mul_smul, Matrix.smul_mul, Matrix.smul_mul, Matrix.mul_smul, Matrix.trace_sub, Matrix.trace_sub,
      Matrix.trace_sub, Matrix.trace_smul, Matrix.trace_smul, Matrix.trace_smul, Matrix.trace_smul, h1, h2, ← hτ]
    simp only [smul_eq_mul]
    ring
  have hdc : d ≠ 0 := by rw [hd]; exact_mod_cast hd0
  have h4 : (τ / d) * star τ = ((‖τ‖ ^ 2 / Fintype.card k : ℝ) : ℂ) := by
    have : τ * star τ = ((‖τ‖ ^ 2 : ℝ) : ℂ) := by
      have := Complex.mul_conj τ
      rw [Complex.normSq_eq_norm_sq] at this
      exact this
    rw [div_mul_eq_mul_div, this]
    push_cast
    rfl
  have h5 : star (τ / d) * (τ / d) * d = (τ / d) * star τ := by
    have : star d = d := by rw [hd]; simp
    rw [star_div₀, this]
    field_simp
  have h6 : star (τ / d) * τ = (τ / d) * star τ := by
    have : star d = d := by rw [hd]; simp
    rw [star_div₀, this]
    field_simp
  rw [frobSq_eq, h3, h5, h6, h4]
  simp only [Complex.add_re, Complex.sub_re, Complex.ofReal_re]
  ring

theorem frobSq_nonneg {k : Type} [Fintype k] (A B : Matrix k k ℂ) : 0 ≤ frobSq A B :=
  Finset.sum_nonneg fun _ _ => Finset.sum_nonneg fun _ _ => sq_nonneg _

theorem frobSq_eq_zero {k : Type} [Fintype k] {A B : Matrix k k ℂ} (h : frobSq A B = 0) : A = B := by
  ext i j
  unfold frobSq at h
  have h1 := (Finset.sum_eq_zero_iff_of_nonneg fun i _ => Finset.sum_nonneg fun j _ => sq_nonneg _).mp h i (Finset.mem_univ _)
  have h2 := (Finset.sum_eq_zero_iff_of_nonneg fun j _ => sq_nonneg _).mp h1 j (Finset.mem_univ _)
  have h3 : ‖A i j - B i j‖ = 0 := by simpa using h2
  exact sub_eq_zero.mp (norm_eq_zero.mp h3)

theorem trace_unitary {k : Type} [Fintype k] [DecidableEq k] {U : Matrix k k ℂ} (hU : U ∈ Matrix.unitaryGroup k ℂ) :
    (Uᴴ * U).trace.re = Fintype.card k := by
  rw [conjTranspose_mul_unitary hU, Matrix.trace_one]
  simp

/-- **C43** For unitary target and propagator the fidelity lies in `[0, 1]`. -/
theorem c43_range (cl : Closest) (mcu : Bool) [Nonempty n] (T U : Matrix n n ℂ) (hT : T ∈ Matrix.unitaryGroup n ℂ)
    (hU : U ∈ Matrix.unitaryGroup n ℂ) :
    0 ≤ entFid cl (n := n) none T U mcu ∧ entFid cl (n := n) none T U mcu ≤ 1 := by
  have hk : 0 < Fintype.card n := Fintype.card_pos
  have hd : (0 : ℝ) < Fintype.card n := by exact_mod_cast hk
  have h := frobSq_multiple U T hT hk
  have h0 := frobSq_nonneg U (((Tᴴ * U).trace / (Fintype.card n : ℂ)) • T)
  rw [h, trace_unitary hU, sub_nonneg] at h0
  have e : entFid cl (n := n) none T U mcu = ‖(Tᴴ * U).trace‖ ^ 2 / Fintype.card n / Fintype.card n := rfl
  rw [e]
  refine ⟨by positivity, ?_⟩
  rw [div_le_one hd]
  exact h0

/-- **C43** It is one exactly for equality up to a global phase. -/
theorem c43_one_iff (cl : Closest) (mcu : Bool) [Nonempty n] (T U : Matrix n n ℂ) (hT : T ∈ Matrix.unitaryGroup n ℂ)
    (hU : U ∈ Matrix.unitaryGroup n ℂ) :
    entFid cl (n := n) none T U mcu = 1 ↔ ∃ z : ℂ, ‖z‖ = 1 ∧ U = z • T := by
  have hk : 0 < Fintype.card n := Fintype.card_pos
  have hd : (0 : ℝ) < Fintype.card n := by exact_mod_cast hk
  have e : entFid cl (n := n) none T U mcu = ‖(Tᴴ * U).trace‖ ^ 2 / Fintype.card n / Fintype.card n := rfl
  constructor
  · intro h1
    have h := frobSq_multiple U T hT hk
    rw [e, div_eq_one_iff_eq hd.ne'] at h1
    rw [trace_unitary hU, h1, sub_self] at h
    refine ⟨_, ?_, frobSq_eq_zero h⟩
    have h2 : ‖(Tᴴ * U).trace‖ ^ 2 = (Fintype.card n : ℝ) ^ 2 := by
      rw [div_eq_iff hd.ne'] at h1
      rw [h1]; ring
    have h3 : ‖(Tᴴ * U).trace‖ = Fintype.card n := by
      rwa [sq_eq_sq₀ (norm_nonneg _) hd.le] at h2
    rw [norm_div, h3]
    simp [hd.ne']
  · rintro ⟨z, hz, rfl⟩
    rw [e, Matrix.mul_smul, Matrix.trace_smul, conjTranspose_mul_unitary hT, Matrix.trace_one, norm_smul, hz, one_mul]
    simp only [Complex.norm_natCast]
    field_simp

/-- **C43** Global phases of target and propagator do not matter. -/
theorem c43_phase (cl : Closest) (mcu : Bool) (T U : Matrix n n ℂ) (z w : ℂ) (hz : ‖z‖ = 1) (hw : ‖w‖ = 1) :
    entFid cl (n := n) none (w • T) (z • U) mcu = entFid cl (n := n) none T U mcu := by
  show ‖((w • T)ᴴ * (z • U)).trace‖ ^ 2 / _ / _ = ‖(Tᴴ * U).trace‖ ^ 2 / _ / _
  rw [Matrix.conjTranspose_smul, Matrix.smul_mul, Matrix.mul_smul, Matrix.trace_smul, Matrix.trace_smul, norm_smul,
    norm_smul, hz, norm_star, hw, one_mul, one_mul]

/-- **C43** Multiplying target and propagator with the same unitaries from the left and from the right does not change
the fidelity. -/
theorem c43_unitary_invariance (cl : Closest) (mcu : Bool) (T U A B : Matrix n n ℂ) (hA : A ∈ Matrix.unitaryGroup n ℂ)
    (hB : B ∈ Matrix.unitaryGroup n ℂ) :
    entFid cl (n := n) none (A * T * B) (A * U * B) mcu = entFid cl (n := n) none T U mcu := by
  show ‖((A * T * B)ᴴ * (A * U * B)).trace‖ ^ 2 / _ / _ = ‖(Tᴴ * U).trace‖ ^ 2 / _ / _
  have : ((A * T * B)ᴴ * (A * U * B)).trace = (Tᴴ * U).trace := by
    rw [Matrix.conjTranspose_mul, Matrix.conjTranspose_mul]
    calc (Bᴴ * (Tᴴ * Aᴴ) * (A * U * B)).trace = (Bᴴ * (Tᴴ * (Aᴴ * A) * U) * B).trace := by simp only [Matrix.mul_assoc]
      _ = (B * Bᴴ * (Tᴴ * U)).trace := by
        rw [conjTranspose_mul_unitary hA, Matrix.mul_one, Matrix.trace_mul_comm, Matrix.mul_assoc]
      _ = (Tᴴ * U).trace := by rw [unitary_mul_conjTranspose hB, Matrix.one_mul]
  rw [this]

/-- **C43** The fidelity is symmetric. -/
theorem c43_symmetric (cl : Closest) (mcu : Bool) (T U : Matrix n n ℂ) :
    entFid cl (n := n) none T U mcu = entFid cl (n := n) none U T mcu := by
  show ‖(Tᴴ * U).trace‖ ^ 2 / _ / _ = ‖(Uᴴ * T).trace‖ ^ 2 / _ / _
  have : (Uᴴ * T).trace = star (Tᴴ * U).trace := by
    rw [← Matrix.trace_conjTranspose, Matrix.conjTranspose_mul, Matrix.conjTranspose_conjTranspose]
  rw [this, norm_star]

/-- The part of a unitary between distinct states has at most the norm of the identity. -/
theorem trace_submatrix_le {U : Matrix n n ℂ} (hU : U ∈ Matrix.unitaryGroup n ℂ) (l : List n) (hl : l.Nodup) :
    ((U.submatrix l.get l.get)ᴴ * U.submatrix l.get l.get).trace.re ≤ l.length := by
  have h1 : ((U.submatrix l.get l.get)ᴴ * U.submatrix l.get l.get).trace.re =
      ∑ j : Fin l.length, ∑ i : Fin l.length, ‖U (l.get i) (l.get j)‖ ^ 2 := by
    rw [Matrix.trace, Complex.re_sum]
    refine Finset.sum_congr rfl fun j _ => ?_
    rw [Matrix.diag_apply, Matrix.mul_apply, Complex.re_sum]
    refine Finset.sum_congr rfl fun i _ => ?_
    rw [Matrix.conjTranspose_apply, Matrix.submatrix_apply, ← Complex.normSq_eq_norm_sq, Complex.normSq_apply]
    simp
  have h2 : ∀ j : n, ∑ i : n, ‖U i j‖ ^ 2 = 1 := by
    intro j
    have := congrFun (congrFun (conjTranspose_mul_unitary hU) j) j
    rw [Matrix.mul_apply, Matrix.one_apply_eq] at this
    have h3 := congrArg Complex.re this
    rw [Complex.re_sum, Complex.one_re] at h3
    rw [← h3]
    refine Finset.sum_congr rfl fun i _ => ?_
    rw [Matrix.conjTranspose_apply, ← Complex.normSq_eq_norm_sq, Complex.normSq_apply]
    simp
  rw [h1]
  calc ∑ j : Fin l.length, ∑ i : Fin l.length, ‖U (l.get i) (l.get j)‖ ^ 2
      ≤ ∑ j : Fin l.length, (1 : ℝ) := by
        refine Finset.sum_le_sum fun j _ => ?_
        rw [← h2 (l.get j)]
        have hinj : Function.Injective l.get := List.nodup_iff_injective_get.mp hl
        rw [← Finset.sum_image (f := fun i => ‖U i (l.get j)‖ ^ 2) (g := l.get) (s := Finset.univ) (fun a _ b _ h => hinj h)]
        exact Finset.sum_le_univ_sum_of_nonneg fun _ => sq_nonneg _
    _ = l.length := by simp

/-- **C43** On distinct computational states the fidelity of a unitary evolution lies in `[0, 1]` and is bounded by
one minus the leakage. -/
theorem c43_truncated (cl : Closest) (l : List n) (hl : l.Nodup) (hne : l ≠ []) (T : Matrix (Fin l.length) (Fin l.length) ℂ)
    (hT : T ∈ Matrix.unitaryGroup (Fin l.length) ℂ) (U : Matrix n n ℂ) (hU : U ∈ Matrix.unitaryGroup n ℂ) :
    0 ≤ entFid cl (some l) T U false ∧
      entFid cl (some l) T U false ≤ ((U.submatrix l.get l.get)ᴴ * U.submatrix l.get l.get).trace.re / l.length ∧
      entFid cl (some l) T U false ≤ 1 := by
  have hlen : 0 < l.length := List.length_pos_iff.mpr hne
  have hk : 0 < Fintype.card (Fin l.length) := by simpa using hlen
  have hd : (0 : ℝ) < l.length := by exact_mod_cast hlen
  have h := frobSq_multiple (U.submatrix l.get l.get) T hT hk
  have h0 := frobSq_nonneg (U.submatrix l.get l.get)
    (((Tᴴ * U.submatrix l.get l.get).trace / (Fintype.card (Fin l.length) : ℂ)) • T)
  rw [h, sub_nonneg, Fintype.card_fin] at h0
  have e : entFid cl (some l) T U false = ‖(Tᴴ * U.submatrix l.get l.get).trace‖ ^ 2 / l.length / l.length := by
    have hc : dim (some l) = l.length := by
      show ((Fintype.card (Fin l.length) : ℕ) : ℝ) = _
      rw [Fintype.card_fin]
    unfold entFid
    rw [hc]
    rfl
  have h1 := trace_submatrix_le hU l hl
  rw [e]
  have h2 : ‖(Tᴴ * U.submatrix l.get l.get).trace‖ ^ 2 / l.length / l.length ≤
      ((U.submatrix l.get l.get)ᴴ * U.submatrix l.get l.get).trace.re / l.length := by
    gcongr
  refine ⟨by positivity, h2, h2.trans ?_⟩
  rw [div_le_one hd]
  exact h1

/-! ## C46 -/

theorem trace_unitarySup (U : Matrix n n ℂ) : (unitarySup U).trace.re = ‖U.trace‖ ^ 2 := by
  unfold unitarySup
  rw [Matrix.trace_kronecker, ← Complex.normSq_eq_norm_sq]
  have : (conjM U).trace = star U.trace := by
    rw [conjM_eq, Matrix.trace_transpose, Matrix.trace_conjTranspose]
  rw [this]
  have h2 : star U.trace * U.trace = (Complex.normSq U.trace : ℂ) := by
    rw [mul_comm]; exact Complex.mul_conj _
  rw [h2, Complex.ofReal_re]

omit [Fintype n] in
theorem setEntry_apply (M : Matrix n n ℂ) (i j i' j' : n) (z : ℂ) :
    setEntry M i j z i' j' = if i' = i ∧ j' = j then z else M i' j' := rfl

omit [Fintype n] in
theorem projComp_eq (l : List n) : projComp l = Matrix.diagonal fun i => if i ∈ l then 1 else 0 := by
  ext i j
  unfold projComp
  have hgen : ∀ M : Matrix n n ℂ, (l.foldl (fun M s => setEntry M s s 1) M) i j = if i = j ∧ i ∈ l then 1 else M i j := by
    induction l with
    | nil => simp
    | cons s l ih =>
      intro M
      rw [List.foldl_cons, ih]
      by_cases h : i = j
      · subst h
        by_cases h1 : i ∈ l
        · simp [h1]
        · simp only [h1, and_false, if_false, setEntry_apply, List.mem_cons, or_false, true_and, and_self]
      · simp only [h, false_and, if_false, setEntry_apply]
        rw [if_neg]
        rintro ⟨rfl, rfl⟩
        exact h rfl
  rw [hgen]
  by_cases h : i = j
  · subst h; simp
  · simp [h]

/-- With distinct states the target is placed in the rows and columns of the computational states. -/
theorem fillTarget_apply (l : List n) (hl : l.Nodup) (A : Matrix (Fin l.length) (Fin l.length) ℂ) :
    fillTarget l A = ∑ i, ∑ k, Matrix.single (l.get i) (l.get k) (A i k) := by
  have hinj : Function.Injective l.get := List.nodup_iff_injective_get.mp hl
  -- one row
  have hrow : ∀ (i : Fin l.length) (ks : List (Fin l.length)), ks.Nodup → ∀ M : Matrix n n ℂ,
      (∀ k ∈ ks, M (l.get i) (l.get k) = 0) →
      ks.foldl (fun M k => setEntry M (l.get i) (l.get k) (A i k)) M =
        M + (ks.map fun k => Matrix.single (l.get i) (l.get k) (A i k)).sum := by
    intro i ks
    induction ks with
    | nil => intro _ M _; simp
    | cons k ks ih =>
      intro hnd M hM
      rw [List.foldl_cons, ih (List.nodup_cons.mp hnd).2, List.map_cons, List.sum_cons, ← add_assoc]
      · congr 1
        ext a b
        rw [setEntry_apply, Matrix.add_apply, Matrix.single_apply]
        by_cases h : a = l.get i ∧ b = l.get k
        · obtain ⟨rfl, rfl⟩ := h
          rw [if_pos ⟨rfl, rfl⟩, if_pos ⟨rfl, rfl⟩, hM k (by simp), zero_add]
        · rw [if_neg h, if_neg (fun h' => h ⟨h'.1.symm, h'.2.symm⟩), add_zero]
      · intro k' hk'
        rw [setEntry_apply, if_neg, hM k' (by simp [hk'])]
        rintro ⟨-, h⟩
        have := hinj h
        subst this
        exact (List.nodup_cons.mp hnd).1 hk'
  have hall : ∀ (is : List (Fin l.length)), is.Nodup → ∀ M : Matrix n n ℂ,
      (∀ i ∈ is, ∀ b, M (l.get i) b = 0) →
      is.foldl (fun M i => (List.finRange l.length).foldl (fun M k => setEntry M (l.get i) (l.get k) (A i k)) M) M =
        M + (is.map fun i => ∑ k, Matrix.single (l.get i) (l.get k) (A i k)).sum := by
    intro is
    induction is with
    | nil => intro _ M _; simp
    | cons i is ih =>
      intro hnd M hM
      have h1 := hrow i (List.finRange l.length) (List.nodup_finRange _) M (fun k _ => hM i (by simp) _)
      have h2 : ((List.finRange l.length).map fun k => Matrix.single (l.get i) (l.get k) (A i k)).sum =
          ∑ k, Matrix.single (l.get i) (l.get k) (A i k) := by
        rw [← List.ofFn_eq_map, List.sum_ofFn]
      rw [List.foldl_cons, h1, h2, ih (List.nodup_cons.mp hnd).2, List.map_cons, List.sum_cons, ← add_assoc]
      intro i' hi' b
      rw [Matrix.add_apply, hM i' (by simp [hi']), zero_add, Matrix.sum_apply]
      refine Finset.sum_eq_zero fun k _ => ?_
      rw [Matrix.single_apply, if_neg]
      rintro ⟨h, -⟩
      have := hinj h
      subst this
      exact (List.nodup_cons.mp hnd).1 hi'
  unfold fillTarget
  rw [hall _ (List.nodup_finRange _) 0 (by simp), zero_add, ← List.ofFn_eq_map, List.sum_ofFn]

theorem trace_fillTarget (l : List n) (hl : l.Nodup) (A : Matrix (Fin l.length) (Fin l.length) ℂ) (U : Matrix n n ℂ) :
    (projComp l * fillTarget l A * U).trace = (A * U.submatrix l.get l.get).trace := by
  have hp : projComp l * fillTarget l A = fillTarget l A := by
    rw [projComp_eq, fillTarget_apply l hl]
    ext a b
    rw [Matrix.diagonal_mul]
    by_cases ha : a ∈ l
    · simp [ha]
    · rw [if_neg ha, zero_mul, Matrix.sum_apply]
      symm
      refine Finset.sum_eq_zero fun i _ => ?_
      rw [Matrix.sum_apply]
      refine Finset.sum_eq_zero fun k _ => ?_
      rw [Matrix.single_apply, if_neg]
      rintro ⟨h, -⟩
      exact ha (h ▸ List.get_mem _ _)
  rw [hp, fillTarget_apply l hl, Finset.sum_mul, Matrix.trace_sum]
  rw [Matrix.trace]
  refine Finset.sum_congr rfl fun i _ => ?_
  rw [Finset.sum_mul, Matrix.trace_sum, Matrix.diag_apply, Matrix.mul_apply]
  refine Finset.sum_congr rfl fun k _ => ?_
  rw [Matrix.trace_single_mul]
  simp

/-- **C46** The fidelity computed from the super operator of a propagator is the fidelity of the propagator, with
and without (distinct) computational states, for every propagator and target. -/
theorem c46_super_operator (cl : Closest) (cs : Option (List n)) (hcs : ∀ l, cs = some l → l.Nodup)
    (T : Matrix (CompIdx cs) (CompIdx cs) ℂ) (U : Matrix n n ℂ) :
    entFidSup cs T (unitarySup U) = entFid cl cs T U false := by
  cases cs with
  | none =>
    show (unitarySup (n := n) (Matrix.conjTranspose (n := n) T) * unitarySup U).trace.re / _ / _ = _
    rw [← unitarySup_mul, trace_unitarySup]
    rfl
  | some l =>
    show (unitarySup (projComp l) * unitarySup (fillTarget l Tᴴ) * unitarySup U).trace.re / _ / _ = _
    rw [← unitarySup_mul, ← unitarySup_mul, trace_unitarySup, trace_fillTarget l (hcs l rfl)]
    rfl

/-! ## C47 -/

theorem entFidSup_add (cs : Option (List n)) (T : Matrix (CompIdx cs) (CompIdx cs) ℂ) (P Q : Sup n) :
    entFidSup cs T (P + Q) = entFidSup cs T P + entFidSup cs T Q := by
  cases cs <;> simp only [entFidSup, Matrix.mul_add, Matrix.trace_add, Complex.add_re, add_div]

theorem entFidSup_smul (cs : Option (List n)) (T : Matrix (CompIdx cs) (CompIdx cs) ℂ) (a : ℝ) (P : Sup n) :
    entFidSup cs T ((a : ℂ) • P) = a * entFidSup cs T P := by
  cases cs <;> simp only [entFidSup, Matrix.mul_smul, Matrix.trace_smul, smul_eq_mul, Complex.re_ofReal_mul, mul_div_assoc]

theorem entFidSup_zero (cs : Option (List n)) (T : Matrix (CompIdx cs) (CompIdx cs) ℂ) : entFidSup cs T 0 = 0 := by
  cases cs <;> simp [entFidSup]

theorem entFidSup_foldl (cs : Option (List n)) (T : Matrix (CompIdx cs) (CompIdx cs) ℂ) (l : List (Matrix n n ℂ)) (S : Sup n) :
    entFidSup cs T (l.foldl (fun S U => S + unitarySup U) S) =
      entFidSup cs T S + (l.map fun U => entFidSup cs T (unitarySup U)).sum := by
  induction l generalizing S with
  | nil => simp
  | cons U l ih => rw [List.foldl_cons, ih, entFidSup_add, List.map_cons, List.sum_cons, add_assoc]

theorem finals_ok (noise : List (List (Matrix n n ℂ))) (h : ∀ f ∈ noise, f ≠ []) :
    allOk (noise.map last) = .ok (noise.map fun f => f.getLastD 0) :=
  allOk_map noise _ _ fun f hf => by
    cases f with
    | nil => exact absurd rfl (h _ hf)
    | cons U f => exact last_ok (by simp [List.getLast?_cons])

/-- **C47** The infidelity of the averaged super operator is the mean infidelity: the Liouville Monte Carlo cost is the
noise infidelity with `neglect_systematic_errors=False`. -/
theorem c47_liouville (cl : Closest) (cs : Option (List n)) (hcs : ∀ l, cs = some l → l.Nodup)
    (T : Matrix (CompIdx cs) (CompIdx cs) ℂ) (fwd : List (Matrix n n ℂ)) (noise : List (List (Matrix n n ℂ)))
    (h : ∀ f ∈ noise, f ≠ []) (hne : noise ≠ []) :
    ∃ c, liouvilleCosts cs T noise = .ok c ∧ noiseCosts cl cs T false false fwd noise = .ok c ∧
      c = mean (noise.map fun f => 1 - entFid cl cs T (f.getLastD 0) false) := by
  have hlen : (0 : ℝ) < noise.length := by exact_mod_cast List.length_pos_iff.mpr hne
  refine ⟨_, ?_, ?_, rfl⟩
  · unfold liouvilleCosts meanSup
    rw [finals_ok noise h]
    simp only [bind, Except.bind, pure, Except.pure]
    congr 1
    have e : (1 / (noise.length : ℂ)) = ((1 / (noise.length : ℝ) : ℝ) : ℂ) := by push_cast; rfl
    rw [e, entFidSup_smul, entFidSup_foldl, entFidSup_zero, zero_add, List.map_map]
    unfold mean
    rw [List.length_map]
    have hs : ∀ L : List (List (Matrix n n ℂ)), (L.map fun f => 1 - entFid cl cs T (f.getLastD 0) false).sum =
        L.length - (L.map ((fun U => entFidSup cs T (unitarySup U)) ∘ fun f => f.getLastD 0)).sum := by
      intro L
      induction L with
      | nil => simp
      | cons f L ih =>
        simp only [List.map_cons, List.sum_cons, ih, List.length_cons, Function.comp, c46_super_operator cl cs hcs]
        push_cast
        ring
    rw [hs]
    field_simp
  · unfold noiseCosts effTarget
    simp only [Bool.false_eq_true, if_false, bind, Except.bind, pure, Except.pure]
    rw [allOk_map noise _ (fun f => 1 - entFid cl cs T (f.getLastD 0) false)]
    intro f hf
    cases f with
    | nil => exact absurd rfl (h _ hf)
    | cons U f => rw [last_ok (a := (U :: f).getLastD 0) (by simp [List.getLast?_cons])]

end
end Verif.Cost
