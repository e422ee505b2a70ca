import Verif.Operator.Array
import Mathlib.Data.Complex.Basic
import Mathlib.Tactic.LinearCombination
import Mathlib.Tactic.IntervalCases

/-! # Property theorems C16 (vectorisation) and C17 (super-operators of unitaries) -/

namespace Verif.Operator
open Verif Arr

section C16
variable {K : Type} [Zero K]

theorem ketVectorize_ok (m : Arr K) (hm : m.WF) (hs : m.rows = m.cols) :
    ketVectorize m = .ok ⟨m.rows * m.rows, 1, m.transpose.buf⟩ := by
  have h1 : m.buf.length = m.rows * m.rows := by rw [hm, ← hs]
  have h2 : m.transpose.buf.length = m.rows * m.rows := by
    rw [transpose_wf m, transpose_rows, transpose_cols, ← hs]
  rw [ketVectorize, if_pos hs, reshape, if_pos (by rw [h1, h2, Nat.mul_one]), h1]

/-- **C16** A square matrix of dimension `d` is vectorised column by column: the ket has shape `(d*d, 1)`
and its entry `j*d+i` is the matrix entry `(i, j)`. -/
theorem c16_column_wise (m : Arr K) (hm : m.WF) (hs : m.rows = m.cols) :
    ∃ v, ketVectorize m = .ok v ∧ v.WF ∧ v.rows = m.rows * m.rows ∧ v.cols = 1 ∧
      ∀ i < m.rows, ∀ j < m.rows, v.entry (j * m.rows + i) 0 = m.entry i j := by
  refine ⟨_, ketVectorize_ok m hm hs, ?_, rfl, rfl, ?_⟩
  · simp only [WF]
    rw [transpose_wf m, transpose_rows, transpose_cols, ← hs, Nat.mul_one]
  · intro i hi j hj
    rw [← entry_transpose m (by omega) hi]
    simp only [entry, transpose_cols, Nat.mul_one, Nat.add_zero]

/-- **C16** Vectorising and squaring returns the matrix. -/
theorem c16_square_of_vectorized (m : Arr K) (hm : m.WF) (hs : m.rows = m.cols) :
    (ketVectorize m >>= ketToSquare) = .ok m := by
  rw [ketVectorize_ok m hm hs]
  have h2 : m.transpose.buf.length = m.rows * m.rows := by
    rw [transpose_wf m, transpose_rows, transpose_cols, ← hs]
  have h3 : (⟨m.rows, m.rows, m.transpose.buf⟩ : Arr K) = m.transpose := by
    simp only [transpose, ofFn, ← hs]
  simp only [bind, Except.bind, ketToSquare, reshape, h2, Nat.sqrt_eq, if_true, pure, Except.pure, h3,
    transpose_transpose m hm]

/-- **C16** Squaring a ket of length `d*d` and vectorising the result returns the ket. -/
theorem c16_vectorized_of_square (d : Nat) (v : Arr K) (hv : v.WF) (hr : v.rows = d * d) (hc : v.cols = 1) :
    (ketToSquare v >>= ketVectorize) = .ok v := by
  have hl : v.buf.length = d * d := by rw [hv, hr, hc, Nat.mul_one]
  have hwf : (⟨d, d, v.buf⟩ : Arr K).WF := hl
  have h1 : ketToSquare v = .ok (⟨d, d, v.buf⟩ : Arr K).transpose := by
    simp only [ketToSquare, hc, if_true, reshape, hl, Nat.sqrt_eq, bind, Except.bind, pure, Except.pure]
  rw [h1]
  simp only [bind, Except.bind]
  rw [ketVectorize_ok _ (transpose_wf _) rfl, transpose_transpose _ hwf]
  simp only [transpose_rows, Except.ok.injEq]
  obtain ⟨r, c, b⟩ := v
  simp only at hr hc
  rw [hr, hc]

/-- **C16** Non-square matrices, arrays that are not kets and kets whose length is no square number are
rejected with `ValueError`. -/
theorem c16_rejects (a : Arr K) :
    (a.rows ≠ a.cols → ketVectorize a = .error .valueError) ∧
    (a.cols ≠ 1 → ketToSquare a = .error .valueError) ∧
    ((∀ d, a.buf.length ≠ d * d) → ketToSquare a = .error .valueError) := by
  refine ⟨fun h => by rw [ketVectorize, if_neg h], fun h => by rw [ketToSquare, if_neg h], fun h => ?_⟩
  by_cases hc : a.cols = 1
  · simp only [ketToSquare, hc, if_true, reshape, if_neg (h _), bind, Except.bind]
  · rw [ketToSquare, if_neg hc]

/-- Non-vacuity: a 2×2 matrix, its ket, and the round trip. -/
example : ketVectorize (⟨2, 2, [1, 2, 3, 4]⟩ : Arr Int) = .ok ⟨4, 1, [1, 3, 2, 4]⟩ ∧
    ketToSquare (⟨4, 1, [1, 3, 2, 4]⟩ : Arr Int) = .ok ⟨2, 2, [1, 2, 3, 4]⟩ ∧
    ketVectorize (⟨1, 2, [1, 2]⟩ : Arr Int) = .error .valueError ∧
    ketToSquare (⟨3, 1, [1, 2, 3]⟩ : Arr Int) = .error .valueError := by
  refine ⟨rfl, ?_, rfl, (c16_rejects _).2.2 fun d h => ?_⟩
  · exact c16_square_of_vectorized (⟨2, 2, [1, 2, 3, 4]⟩ : Arr Int) rfl rfl
  · simp only [List.length_cons, List.length_nil] at h
    rcases Nat.lt_or_ge d 2 with h' | h'
    · interval_cases d <;> simp at h
    · nlinarith

end C16

section C17
variable {K : Type} [CommRing K] [StarRing K]

theorem superOperator_wf (u : Arr K) : (superOperator u).WF := kron_wf _ _
@[simp] theorem superOperator_rows (u : Arr K) : (superOperator u).rows = u.rows * u.rows := rfl
@[simp] theorem superOperator_cols (u : Arr K) : (superOperator u).cols = u.cols * u.cols := rfl

theorem entry_superOperator (u : Arr K) {i j k l : Nat} (hi : i < u.rows) (hj : j < u.rows) (hk : k < u.cols)
    (hl : l < u.cols) :
    (superOperator u).entry (i * u.rows + j) (k * u.cols + l) = star (u.entry i k) * u.entry j l := by
  have := entry_kron u.conj u hi hj hk hl
  rw [entry_conj] at this
  exact this

/-- **C17** The super-operator acts on vectorised matrices as the conjugation `ρ ↦ U ρ U†`. -/
theorem c17_conjugation (d : Nat) (u ρ : Arr K) (hu : u.rows = d ∧ u.cols = d)
    (hρ : ρ.WF ∧ ρ.rows = d ∧ ρ.cols = d) :
    (do let v ← ketVectorize ρ; (superOperator u).matmul v)
      = (do let a ← u.matmul ρ; let b ← a.matmul u.dag; ketVectorize b) := by
  obtain ⟨hur, huc⟩ := hu
  obtain ⟨hw, hr, hc⟩ := hρ
  obtain ⟨v, hv, hvw, hvr, hvc, hve⟩ := c16_column_wise ρ hw (by rw [hr, hc])
  rw [hv]
  simp only [bind, Except.bind]
  obtain ⟨a, ha, -, har, hac, hae⟩ := matmul_spec (a := u) (b := ρ) (by rw [huc, hr])
  rw [ha]
  simp only
  obtain ⟨b, hb, hbw, hbr, hbc, hbe⟩ := matmul_spec (a := a) (b := u.dag) (by rw [dag_rows, huc, hac, hc])
  rw [hb]
  simp only
  rw [har, hur] at hbr hbe
  rw [dag_cols, hur] at hbc hbe
  rw [hac, hc] at hbe
  rw [hur, huc, hc] at hae
  obtain ⟨w, hw', hww, hwr, hwc, hwe⟩ := c16_column_wise b hbw (by rw [hbr, hbc])
  obtain ⟨x, hx, hxw, hxr, hxc, hxe⟩ := matmul_spec (a := superOperator u) (b := v)
    (by rw [superOperator_cols, hvr, huc, hr])
  rw [hw', hx]
  simp only [Except.ok.injEq]
  rw [hr] at hvr hve
  rw [hbr] at hwr hwe
  rw [superOperator_rows, superOperator_cols, hur, huc, hvc] at hxe
  rw [superOperator_rows, hur] at hxr
  refine ext_entry hxw hww (by rw [hxr, hwr]) (by rw [hxc, hvc, hwc]) ?_
  intro p hp q hq
  rw [hxr] at hp
  have hq0 : q = 0 := by omega
  subst hq0
  obtain ⟨j, i, hj, hi, rfl⟩ := exists_index hp
  rw [hwe i hi j hj, hxe _ hp 0 one_pos, sum_range_mul, hbe i hi j hj]
  refine Finset.sum_congr rfl fun k hk => ?_
  have hk' : k < d := Finset.mem_range.mp hk
  rw [hae i hi k hk', entry_dag u (by omega) (by omega), Finset.sum_mul]
  refine Finset.sum_congr rfl fun l hl => ?_
  have hl' : l < d := Finset.mem_range.mp hl
  have e := entry_superOperator u (i := j) (j := i) (k := k) (l := l) (by omega) (by omega) (by omega)
    (by omega)
  rw [hur, huc] at e
  rw [e, hve l hl' k hk']
  ring

/-- **C17** Super-operators multiply like the operators. -/
theorem c17_multiplicative (u v : Arr K) (h : u.cols = v.rows) :
    ∃ w, u.matmul v = .ok w ∧ (superOperator u).matmul (superOperator v) = .ok (superOperator w) := by
  obtain ⟨w, hw, -, hwr, hwc, hwe⟩ := matmul_spec h
  obtain ⟨x, hx, hxw, hxr, hxc, hxe⟩ := matmul_spec (a := superOperator u) (b := superOperator v)
    (by rw [superOperator_cols, superOperator_rows, h])
  refine ⟨w, hw, ?_⟩
  rw [hx]
  simp only [Except.ok.injEq]
  simp only [superOperator_rows, superOperator_cols] at hxr hxc hxe
  refine ext_entry hxw (superOperator_wf _) (by rw [hxr, superOperator_rows, hwr])
    (by rw [hxc, superOperator_cols, hwc]) ?_
  intro p hp q hq
  rw [hxr] at hp
  rw [hxc] at hq
  rw [hxe p hp q hq]
  obtain ⟨i, j, hi, hj, rfl⟩ := exists_index hp
  obtain ⟨k, l, hk, hl, rfl⟩ := exists_index hq
  have e := entry_superOperator w (i := i) (j := j) (k := k) (l := l) (by omega) (by omega) (by omega)
    (by omega)
  rw [hwr, hwc] at e
  rw [e, sum_range_mul, hwe i hi k hk, hwe j hj l hl, star_sum, Finset.sum_mul_sum]
  refine Finset.sum_congr rfl fun a ha => Finset.sum_congr rfl fun b hb => ?_
  have ha' := Finset.mem_range.mp ha
  have hb' := Finset.mem_range.mp hb
  rw [entry_superOperator u hi hj ha' hb']
  have e2 := entry_superOperator v (i := a) (j := b) (k := k) (l := l) (by omega) (by omega) hk hl
  rw [← h] at e2
  rw [e2, star_mul']
  ring

/-- **C17** The identity is mapped to the identity. -/
theorem c17_identity (d : Nat) : superOperator (eye K d) = eye K (d * d) := by
  refine ext_entry (superOperator_wf _) (ofFn_wf _ _ _) rfl rfl ?_
  intro p hp q hq
  have hp' : p < d * d := hp
  have hq' : q < d * d := hq
  rw [show (eye K (d * d)).entry p q = if p = q then 1 else 0 from entry_ofFn _ hp' hq']
  obtain ⟨i, j, hi, hj, rfl⟩ := exists_index hp'
  obtain ⟨k, l, hk, hl, rfl⟩ := exists_index hq'
  have e : (superOperator (eye K d)).entry (i * d + j) (k * d + l) = star ((eye K d).entry i k) *
    (eye K d).entry j l := entry_superOperator (eye K d) (i := i) (j := j) (k := k) (l := l) hi hj hk hl
  rw [e, show (eye K d).entry i k = if i = k then 1 else 0 from entry_ofFn _ hi hk,
    show (eye K d).entry j l = if j = l then 1 else 0 from entry_ofFn _ hj hl]
  by_cases h1 : i = k
  · by_cases h2 : j = l
    · simp [h1, h2]
    · have : ¬ (i * d + j = k * d + l) := by rw [h1]; omega
      simp [h2, this]
  · have : ¬ (i * d + j = k * d + l) := by
      intro h
      apply h1
      rw [← index_div hj (i := i), h, index_div hl]
    simp [h1, this]

/-- **C17** Taking the adjoint commutes with forming the super-operator. -/
theorem c17_dag (u : Arr K) : superOperator u.dag = (superOperator u).dag := by
  refine ext_entry (superOperator_wf _) (dag_wf _) rfl rfl ?_
  intro p hp q hq
  have hp' : p < u.cols * u.cols := hp
  have hq' : q < u.rows * u.rows := hq
  rw [entry_dag _ hp' hq']
  obtain ⟨i, j, hi, hj, rfl⟩ := exists_index hp'
  obtain ⟨k, l, hk, hl, rfl⟩ := exists_index hq'
  have e : (superOperator u.dag).entry (i * u.cols + j) (k * u.rows + l) = star (u.dag.entry i k) *
    u.dag.entry j l := entry_superOperator u.dag (i := i) (j := j) (k := k) (l := l) hi hj hk hl
  rw [e, entry_superOperator u hk hl hi hj, entry_dag u hi hk, entry_dag u hj hl, star_mul']

/-- **C17** A global phase of `U` does not change the super-operator. -/
theorem c17_global_phase (u : Arr K) (z : K) (hz : star z * z = 1) :
    superOperator (u.smul z) = superOperator u := by
  refine ext_entry (superOperator_wf _) (superOperator_wf _) rfl rfl ?_
  intro p hp q hq
  have hp' : p < u.rows * u.rows := hp
  have hq' : q < u.cols * u.cols := hq
  obtain ⟨i, j, hi, hj, rfl⟩ := exists_index hp'
  obtain ⟨k, l, hk, hl, rfl⟩ := exists_index hq'
  have e : (superOperator (u.smul z)).entry (i * u.rows + j) (k * u.cols + l) =
    star ((u.smul z).entry i k) * (u.smul z).entry j l :=
    entry_superOperator (u.smul z) (i := i) (j := j) (k := k) (l := l) hi hj hk hl
  rw [e, entry_superOperator u hi hj hk hl, entry_smul, entry_smul, star_mul']
  linear_combination (star (u.entry i k) * u.entry j l) * hz

/-- Non-vacuity: a 2×2 complex matrix and a density matrix meet the hypotheses of C17, and `i` is a phase
with `star i * i = 1`. -/
example : (∃ u ρ : Arr ℂ, (u.rows = 2 ∧ u.cols = 2) ∧ (ρ.WF ∧ ρ.rows = 2 ∧ ρ.cols = 2)) ∧
    star Complex.I * Complex.I = 1 :=
  ⟨⟨⟨2, 2, [0, 1, 1, 0]⟩, ⟨2, 2, [1, 0, 0, 0]⟩, ⟨rfl, rfl⟩, rfl, rfl, rfl⟩, by simp⟩

end C17
end Verif.Operator
