import Verif.Solver.Lemmas
import Mathlib.LinearAlgebra.Matrix.Charpoly.Basic
import Mathlib.Data.List.Sort
import Mathlib.Data.Fin.Tuple.Sort
import Mathlib.Algebra.Polynomial.Roots
import Mathlib.Tactic.FinCases

/-!
# C107: energy spectra (energy_spectrum.py)

The drawing itself is replaced by the data handed to `ax.scatter`.  The colours of the basis states (`mpl.cm.get_cmap('brg')` at equally
spaced points, without the alpha channel) are a parameter.
-/

namespace Verif.Data
open Verif Verif.Operator Matrix

variable {d : Nat}

/-! ## Model -/

/-- `np.einsum('ij, ni -> nj', basis_colors, np.abs(vectors))` for one row `n`, energy_spectrum.py:70. -/
noncomputable def rawColour (B : Fin d → Fin 3 → ℝ) (v : Fin d → ℂ) (j : Fin 3) : ℝ := ∑ i, B i j * ‖v i‖

/-- `np.max(values, axis=-1)` of three values. -/
noncomputable def max3 (c : Fin 3 → ℝ) : ℝ := max (c 0) (max (c 1) (c 2))

/-- `vector_color_map`, energy_spectrum.py:46-76: one colour per *row* of `vectors`.  Simplification: the division of zero by zero (a row
of zeros, `nan` in numpy) is zero. -/
noncomputable def vectorColorMap (B : Fin d → Fin 3 → ℝ) (vectors : List (Fin d → ℂ)) : List (Fin 3 → ℝ) :=
  vectors.map fun v j => rawColour B v j / max3 (rawColour B v)

/-- One call of `ax.scatter(x=x_val, y=eigenvalues[:, i], c=...)`: points with their colours. -/
structure Scatter where
  x : List ℝ
  y : List ℝ
  c : List (Fin 3 → ℝ)

/-- `plot_energy_spectrum`, energy_spectrum.py:79-128, with `use_spectral_decomposition=True`: one call of `scatter` for each band.
IndexError without Hamiltonians, ValueError of `scatter` when the numbers of points differ.  Simplifications: all Hamiltonians have the
same size; the absolute values are taken once (the code takes them twice). -/
noncomputable def energySpectrum (eigh : Matrix (Fin d) (Fin d) ℂ → (Fin d → ℝ) × Matrix (Fin d) (Fin d) ℂ) (B : Fin d → Fin 3 → ℝ)
    (hs : List (Matrix (Fin d) (Fin d) ℂ)) (xs : List ℝ) : Except PyErr (List Scatter) :=
  match hs with
  | [] => .error .indexError
  | _ => if xs.length ≠ hs.length ∧ d ≠ 0 then .error .valueError
    else .ok ((List.finRange d).map fun i =>
      ⟨xs, hs.map fun H => (eigh H).1 i, vectorColorMap B (hs.map fun H a => (eigh H).2 a i)⟩)

/-! ## Specification -/

/-- What `scipy.linalg.eigh` promises: a unitary diagonalisation with ascending eigenvalues. -/
def EighSorted (eigh : Matrix (Fin d) (Fin d) ℂ → (Fin d → ℝ) × Matrix (Fin d) (Fin d) ℂ) : Prop :=
  ∀ H : Matrix (Fin d) (Fin d) ℂ, H.IsHermitian → UnitaryDecomp H (fun j => ((eigh H).1 j : ℂ)) (eigh H).2 ∧ Monotone (eigh H).1

/-- The colours of the basis states are colours, none of them black. -/
structure Palette (B : Fin d → Fin 3 → ℝ) : Prop where
  nonneg : ∀ i j, 0 ≤ B i j
  notBlack : ∀ i, ∃ j, 0 < B i j

/-! ## Lemmas -/

theorem le_max3 (c : Fin 3 → ℝ) (j : Fin 3) : c j ≤ max3 c := by
  unfold max3
  fin_cases j
  · exact le_max_left _ _
  · exact (le_max_left _ _).trans (le_max_right _ _)
  · exact (le_max_right _ _).trans (le_max_right _ _)

theorem max3_attained (c : Fin 3 → ℝ) : ∃ j, c j = max3 c := by
  unfold max3
  rcases max_choice (c 0) (max (c 1) (c 2)) with h | h
  · exact ⟨0, h.symm⟩
  · rcases max_choice (c 1) (c 2) with h' | h'
    · exact ⟨1, by rw [h, h']⟩
    · exact ⟨2, by rw [h, h']⟩

theorem rawColour_nonneg {B : Fin d → Fin 3 → ℝ} (hB : Palette B) (v : Fin d → ℂ) (j : Fin 3) : 0 ≤ rawColour B v j :=
  Finset.sum_nonneg fun i _ => mul_nonneg (hB.nonneg i j) (norm_nonneg _)

theorem max3_pos {B : Fin d → Fin 3 → ℝ} (hB : Palette B) {v : Fin d → ℂ} (hv : v ≠ 0) : 0 < max3 (rawColour B v) := by
  obtain ⟨i, hi⟩ := Function.ne_iff.mp hv
  obtain ⟨j, hj⟩ := hB.notBlack i
  refine lt_of_lt_of_le ?_ (le_max3 _ j)
  exact Finset.sum_pos' (fun i _ => mul_nonneg (hB.nonneg i j) (norm_nonneg _))
    ⟨i, Finset.mem_univ _, mul_pos hj (norm_pos_iff.mpr hi)⟩

theorem charpoly_decomp {H V : Matrix (Fin d) (Fin d) ℂ} {lam : Fin d → ℂ} (h : UnitaryDecomp H lam V) :
    H.charpoly = ∏ i, (Polynomial.X - Polynomial.C (lam i)) := by
  have hV : V * Vᴴ = 1 := Matrix.mem_unitaryGroup_iff.mp h.1
  have hV' : Vᴴ * V = 1 := Matrix.mem_unitaryGroup_iff'.mp h.1
  have e : H = V * (diagonal lam * Vᴴ) := by
    rw [← Matrix.mul_assoc, ← h.2, Matrix.mul_assoc, hV, Matrix.mul_one]
  rw [e, charpoly_mul_comm, Matrix.mul_assoc, hV', Matrix.mul_one, charpoly_diagonal]

theorem roots_decomp {H V : Matrix (Fin d) (Fin d) ℂ} {lam : Fin d → ℂ} (h : UnitaryDecomp H lam V) :
    H.charpoly.roots = ((List.ofFn lam : List ℂ) : Multiset ℂ) := by
  rw [charpoly_decomp h, show (∏ i, (Polynomial.X - Polynomial.C (lam i))) =
    (((List.ofFn lam : List ℂ) : Multiset ℂ).map fun a => Polynomial.X - Polynomial.C a).prod by
      rw [Multiset.map_coe, Multiset.prod_coe, List.map_ofFn, List.prod_ofFn]; rfl]
  exact Polynomial.roots_multiset_prod_X_sub_C _

theorem energies_unique {H V V' : Matrix (Fin d) (Fin d) ℂ} {lam lam' : Fin d → ℝ} (h : UnitaryDecomp H (fun i => (lam i : ℂ)) V)
    (h' : UnitaryDecomp H (fun i => (lam' i : ℂ)) V') (hm : Monotone lam) (hm' : Monotone lam') : lam = lam' := by
  have e := (roots_decomp h).symm.trans (roots_decomp h')
  have hp : (List.ofFn fun i => (lam i : ℂ)).Perm (List.ofFn fun i => (lam' i : ℂ)) := Multiset.coe_eq_coe.mp e
  have hp' : (List.ofFn lam).Perm (List.ofFn lam') := by
    have := hp.map Complex.re
    simpa [List.map_ofFn, Function.comp_def] using this
  have := hp'.eq_of_sortedLE hm.sortedLE_ofFn hm'.sortedLE_ofFn
  exact List.ofFn_injective this

theorem moduli_unique {H V V' : Matrix (Fin d) (Fin d) ℂ} {lam : Fin d → ℝ} (h : UnitaryDecomp H (fun i => (lam i : ℂ)) V)
    (h' : UnitaryDecomp H (fun i => (lam i : ℂ)) V') (hi : Function.Injective lam) (a i : Fin d) : ‖V a i‖ = ‖V' a i‖ := by
  have hV : V * Vᴴ = 1 := Matrix.mem_unitaryGroup_iff.mp h.1
  have hV2 : Vᴴ * V = 1 := Matrix.mem_unitaryGroup_iff'.mp h.1
  have hV'2 : V'ᴴ * V' = 1 := Matrix.mem_unitaryGroup_iff'.mp h'.1
  set C := Vᴴ * V' with hC
  have hcomm : diagonal (fun i => (lam i : ℂ)) * C = C * diagonal (fun i => (lam i : ℂ)) := by
    have e1 : Vᴴ * H = diagonal (fun i => (lam i : ℂ)) * Vᴴ := by
      have : Vᴴ * (H * V) * Vᴴ = Vᴴ * (V * diagonal (fun i => (lam i : ℂ))) * Vᴴ := by rw [h.2]
      rw [← Matrix.mul_assoc Vᴴ V, hV2, Matrix.one_mul, Matrix.mul_assoc, Matrix.mul_assoc H, hV, Matrix.mul_one] at this
      exact this
    rw [hC, ← Matrix.mul_assoc, ← e1, Matrix.mul_assoc, h'.2, Matrix.mul_assoc]
  have hoff : ∀ j k, j ≠ k → C j k = 0 := by
    intro j k hjk
    have := congrFun (congrFun hcomm j) k
    rw [Matrix.diagonal_mul, Matrix.mul_diagonal] at this
    have hne : (lam j : ℂ) - lam k ≠ 0 := by
      rw [sub_ne_zero]
      exact fun he => hjk (hi (by exact_mod_cast he))
    have : ((lam j : ℂ) - lam k) * C j k = 0 := by rw [sub_mul, this]; ring
    exact (mul_eq_zero.mp this).resolve_left hne
  have hV'C : V' = V * C := by rw [hC, ← Matrix.mul_assoc, hV, Matrix.one_mul]
  have hCu : Cᴴ * C = 1 := by
    rw [hC, Matrix.conjTranspose_mul, Matrix.conjTranspose_conjTranspose, Matrix.mul_assoc, ← Matrix.mul_assoc V, hV, Matrix.one_mul, hV'2]
  have hn : ‖C i i‖ = 1 := by
    have h1 := congrFun (congrFun hCu i) i
    rw [Matrix.mul_apply, Finset.sum_eq_single i (fun j _ hj => by rw [hoff j i hj, mul_zero]) (by simp), Matrix.one_apply_eq,
      Matrix.conjTranspose_apply] at h1
    have h2 : ‖C i i‖ * ‖C i i‖ = 1 := by
      have := congrArg norm h1
      rwa [norm_mul, norm_star, norm_one] at this
    nlinarith [norm_nonneg (C i i)]
  rw [hV'C, Matrix.mul_apply, Finset.sum_eq_single i (fun j _ hj => by rw [hoff j i hj, mul_zero]) (by simp), norm_mul, hn, mul_one]

/-! ## C107 -/

/-- **C107** For Hermitian Hamiltonians the plot has one band per level, each with a point for every Hamiltonian at the given position;
the energies over one position ascend from band to band and are the eigenvalues of that Hamiltonian with their multiplicities. -/
theorem c107_energies {eigh : Matrix (Fin d) (Fin d) ℂ → (Fin d → ℝ) × Matrix (Fin d) (Fin d) ℂ} (he : EighSorted eigh)
    (B : Fin d → Fin 3 → ℝ) (hs : List (Matrix (Fin d) (Fin d) ℂ)) (hne : hs ≠ []) (xs : List ℝ) (hl : xs.length = hs.length)
    (hH : ∀ H ∈ hs, H.IsHermitian) :
    ∃ bands, energySpectrum eigh B hs xs = .ok bands ∧ bands.length = d ∧
      (∀ b ∈ bands, b.x = xs ∧ b.y.length = hs.length ∧ b.c.length = hs.length) ∧
      ∀ (k : Nat) (H : Matrix (Fin d) (Fin d) ℂ), hs[k]? = some H → ∃ E : List ℝ, bands.map (fun b => b.y[k]?) = E.map some ∧
        E.Pairwise (· ≤ ·) ∧ H.charpoly.roots = ((E.map fun e : ℝ => (e : ℂ)) : Multiset ℂ) := by
  obtain ⟨H₀, r, rfl⟩ := List.exists_cons_of_ne_nil hne
  refine ⟨_, by simp only [energySpectrum, hl, ne_eq, not_true_eq_false, false_and, if_false]; rfl, by simp, ?_, ?_⟩
  · intro b hb
    obtain ⟨i, -, rfl⟩ := List.mem_map.mp hb
    simp [vectorColorMap]
  · intro k H hk
    obtain ⟨h1, h2⟩ := he H (hH H (List.mem_of_getElem? hk))
    refine ⟨List.ofFn (eigh H).1, ?_, ?_, ?_⟩
    · rw [List.map_map, List.ofFn_eq_map, List.map_map]
      refine List.map_congr_left fun i _ => ?_
      simp only [Function.comp, List.getElem?_map, hk, Option.map_some]
    · exact List.pairwise_ofFn.mpr fun i j hij => h2 hij.le
    · rw [roots_decomp h1, List.map_ofFn]
      rfl

/-- **C107** Colours lie in the unit cube, with one channel fully on. -/
theorem c107_colour_range {B : Fin d → Fin 3 → ℝ} (hB : Palette B) (vectors : List (Fin d → ℂ)) (hv : ∀ v ∈ vectors, v ≠ 0) :
    ∀ c ∈ vectorColorMap B vectors, (∀ j, 0 ≤ c j ∧ c j ≤ 1) ∧ ∃ j, c j = 1 := by
  intro c hc
  obtain ⟨v, hv', rfl⟩ := List.mem_map.mp hc
  have hp := max3_pos hB (hv v hv')
  refine ⟨fun j => ⟨div_nonneg (rawColour_nonneg hB v j) hp.le, (div_le_one hp).mpr (le_max3 _ j)⟩, ?_⟩
  obtain ⟨j, hj⟩ := max3_attained (rawColour B v)
  exact ⟨j, (congrArg (· / max3 (rawColour B v)) hj).trans (div_self hp.ne')⟩

/-- **C107** The point of a band over one position carries an energy and the colour of a normalised eigenvector to that energy: red, green
and blue are in the proportion of the basis colours weighted with the moduli of its components. -/
theorem c107_colours {eigh : Matrix (Fin d) (Fin d) ℂ → (Fin d → ℝ) × Matrix (Fin d) (Fin d) ℂ} (he : EighSorted eigh)
    {B : Fin d → Fin 3 → ℝ} (hB : Palette B) (hs : List (Matrix (Fin d) (Fin d) ℂ)) (xs : List ℝ) (hH : ∀ H ∈ hs, H.IsHermitian)
    (bands : List Scatter) (hb : energySpectrum eigh B hs xs = .ok bands) :
    ∀ b ∈ bands, ∀ (k : Nat) (H : Matrix (Fin d) (Fin d) ℂ), hs[k]? = some H →
      ∃ (e : ℝ) (v : Fin d → ℂ) (c : Fin 3 → ℝ), b.y[k]? = some e ∧ b.c[k]? = some c ∧ H *ᵥ v = (e : ℂ) • v ∧ ∑ a, ‖v a‖ ^ 2 = 1 ∧
        (∃ r : ℝ, 0 < r ∧ ∀ j, c j = r * ∑ a, B a j * ‖v a‖) ∧ (∀ j, 0 ≤ c j ∧ c j ≤ 1) ∧ ∃ j, c j = 1 := by
  intro b hbm k H hk
  have hb' : bands = (List.finRange d).map fun i =>
      ⟨xs, hs.map fun H => (eigh H).1 i, vectorColorMap B (hs.map fun H a => (eigh H).2 a i)⟩ := by
    unfold energySpectrum at hb
    split at hb
    · cases hb
    · split at hb
      · cases hb
      · exact (Except.ok.inj hb).symm
  rw [hb'] at hbm
  obtain ⟨i, -, rfl⟩ := List.mem_map.mp hbm
  obtain ⟨⟨h1, h2⟩, -⟩ := he H (hH H (List.mem_of_getElem? hk))
  have hn : ∑ a, ‖(eigh H).2 a i‖ ^ 2 = 1 := by
    have h1' : ((eigh H).2)ᴴ * (eigh H).2 = 1 := Matrix.mem_unitaryGroup_iff'.mp h1
    have := congrFun (congrFun h1' i) i
    rw [Matrix.mul_apply, Matrix.one_apply_eq] at this
    have h3 : ((∑ a, ‖(eigh H).2 a i‖ ^ 2 : ℝ) : ℂ) = 1 := by
      rw [← this, Complex.ofReal_sum]
      exact Finset.sum_congr rfl fun a _ => by
        rw [Matrix.conjTranspose_apply, Complex.star_def, Complex.ofReal_pow]
        exact (Complex.conj_mul' _).symm
    exact_mod_cast h3
  have hne : (fun a => (eigh H).2 a i) ≠ 0 := by
    intro h0
    have : ∀ a, (eigh H).2 a i = 0 := fun a => congrFun h0 a
    simp [this] at hn
  have hp := max3_pos hB hne
  refine ⟨(eigh H).1 i, fun a => (eigh H).2 a i, fun j => rawColour B (fun a => (eigh H).2 a i) j / max3 (rawColour B fun a => (eigh H).2 a i),
    by simp [hk], by simp [vectorColorMap, hk], ?_, hn, ⟨(max3 (rawColour B fun a => (eigh H).2 a i))⁻¹, inv_pos.mpr hp, fun j => ?_⟩,
    c107_colour_range hB [fun a => (eigh H).2 a i] (by simpa using hne) _ (by simp [vectorColorMap])⟩
  · funext a
    have := congrFun (congrFun h2 a) i
    rw [Matrix.mul_diagonal, Matrix.mul_apply] at this
    simp only [Matrix.mulVec, dotProduct, Pi.smul_apply, smul_eq_mul]
    rw [this, mul_comm]
  · exact div_eq_inv_mul (rawColour B (fun a => (eigh H).2 a i) j) _

/-- **C107** The colour of a state depends on the relative moduli of its components only. -/
theorem c107_colour_moduli (B : Fin d → Fin 3 → ℝ) (v w : Fin d → ℂ) (r : ℝ) (hr : 0 < r) (h : ∀ i, ‖w i‖ = r * ‖v i‖) :
    vectorColorMap B [w] = vectorColorMap B [v] := by
  have e : ∀ j, rawColour B w j = r * rawColour B v j := fun j => by
    unfold rawColour
    rw [Finset.mul_sum]
    exact Finset.sum_congr rfl fun i _ => by rw [h i]; ring
  have em : max3 (rawColour B w) = r * max3 (rawColour B v) := by
    simp only [max3, e, mul_max_of_nonneg _ _ hr.le]
  simp only [vectorColorMap, List.map_cons, List.map_nil, e, em, mul_div_mul_left _ _ hr.ne']

/-- **C107** A basis state has its own colour, at full brightness. -/
theorem c107_colour_basis (B : Fin d → Fin 3 → ℝ) (i : Fin d) (z : ℂ) (hz : ‖z‖ = 1) :
    vectorColorMap B [Pi.single i z] = [fun j => B i j / max3 (B i)] := by
  have e : ∀ j, rawColour B (Pi.single i z) j = B i j := fun j => by
    unfold rawColour
    rw [Finset.sum_eq_single i (fun k _ hk => by simp [hk]) (by simp)]
    simp [hz]
  have em : rawColour B (Pi.single i z) = B i := funext e
  simp only [vectorColorMap, List.map_cons, List.map_nil, em]

/-- **C107** For Hamiltonians without degenerate levels the whole plot, including the colours, does not depend on the choices of the
eigenvalue routine (such as the phases of the eigenvectors); the energies do not in any case. -/
theorem c107_unique {eigh eigh' : Matrix (Fin d) (Fin d) ℂ → (Fin d → ℝ) × Matrix (Fin d) (Fin d) ℂ} (he : EighSorted eigh)
    (he' : EighSorted eigh') (B : Fin d → Fin 3 → ℝ) (hs : List (Matrix (Fin d) (Fin d) ℂ)) (xs : List ℝ)
    (hH : ∀ H ∈ hs, H.IsHermitian) :
    (∀ b b', energySpectrum eigh B hs xs = .ok b → energySpectrum eigh' B hs xs = .ok b' → b.map Scatter.y = b'.map Scatter.y) ∧
    ((∀ H ∈ hs, H.charpoly.roots.Nodup) → energySpectrum eigh B hs xs = energySpectrum eigh' B hs xs) := by
  have hlam : ∀ H ∈ hs, (eigh H).1 = (eigh' H).1 := fun H hm =>
    energies_unique (he H (hH H hm)).1 (he' H (hH H hm)).1 (he H (hH H hm)).2 (he' H (hH H hm)).2
  cases hs with
  | nil => exact ⟨fun b b' h => by simp [energySpectrum] at h, fun _ => rfl⟩
  | cons H₀ r =>
    refine ⟨fun b b' h h' => ?_, fun hn => ?_⟩
    · simp only [energySpectrum] at h h'
      split at h
      · simp at h
      · rename_i hc
        rw [if_neg hc] at h'
        simp only [Except.ok.injEq] at h h'
        subst h h'
        simp only [List.map_map]
        refine List.map_congr_left fun i _ => ?_
        simp only [Function.comp]
        exact List.map_congr_left fun H hm => by rw [hlam H hm]
    · have hmod : ∀ H ∈ H₀ :: r, ∀ a i, ‖(eigh H).2 a i‖ = ‖(eigh' H).2 a i‖ := by
        intro H hm a i
        have h1 := (he H (hH H hm)).1
        have h2 := (he' H (hH H hm)).1
        rw [← hlam H hm] at h2
        refine moduli_unique h1 h2 (fun i j hij => ?_) a i
        have hnd := hn H hm
        rw [roots_decomp h1, Multiset.coe_nodup, List.nodup_ofFn] at hnd
        exact hnd (by simp [hij])
      have hcol : ∀ i, vectorColorMap B ((H₀ :: r).map fun H a => (eigh H).2 a i) =
          vectorColorMap B ((H₀ :: r).map fun H a => (eigh' H).2 a i) := by
        intro i
        simp only [vectorColorMap, List.map_map]
        refine List.map_congr_left fun H hm => ?_
        have : rawColour B (fun a => (eigh H).2 a i) = rawColour B (fun a => (eigh' H).2 a i) := by
          funext j
          exact Finset.sum_congr rfl fun a _ => by rw [hmod H hm a i]
        simp only [Function.comp, this]
      have hy : ∀ i, (H₀ :: r).map (fun H => (eigh H).1 i) = (H₀ :: r).map fun H => (eigh' H).1 i := fun i =>
        List.map_congr_left fun H hm => by rw [hlam H hm]
      simp only [energySpectrum, hcol, hy]

/-- **C107 violated**: the docstring of `vector_color_map` gives the eigenvectors as columns, but a column does not get the colour of
the state it holds: for the columns (1, 0) and (1, 1) the first result is the mixed colour. -/
theorem c107_violated_columns : ∃ (B : Fin 2 → Fin 3 → ℝ) (M : Matrix (Fin 2) (Fin 2) ℂ), Palette B ∧
    vectorColorMap B (List.ofFn fun i => M i) ≠ List.ofFn fun i => (fun j => rawColour B (fun a => M a i) j / max3 (rawColour B fun a => M a i)) := by
  refine ⟨fun i j => if i = 0 then (if j = 2 then 1 else 0) else (if j = 1 then 1 else 0), !![1, 1; 0, 1], ⟨?_, ?_⟩, ?_⟩
  · intro i j; split <;> split <;> norm_num
  · intro i
    fin_cases i
    · exact ⟨2, by simp⟩
    · exact ⟨1, by simp⟩
  · intro h
    have h0 := congrArg (fun l : List (Fin 3 → ℝ) => (l.getD 0 0) 1) h
    simp [vectorColorMap, rawColour, max3, Fin.sum_univ_two, List.ofFn_succ] at h0

/-! ### A case of C107 -/

theorem eighSorted_exists (d : Nat) : ∃ eigh : Matrix (Fin d) (Fin d) ℂ → (Fin d → ℝ) × Matrix (Fin d) (Fin d) ℂ, EighSorted eigh := by
  obtain ⟨L, hL, -⟩ := Solver.lapack_exists (Fin d)
  refine ⟨fun H => ((L.eigh H).1 ∘ Tuple.sort (L.eigh H).1, (L.eigh H).2.submatrix id (Tuple.sort (L.eigh H).1)), fun H hH => ⟨⟨?_, ?_⟩, ?_⟩⟩
  · obtain ⟨h1, h2⟩ := hL H hH
    have h1' : ((L.eigh H).2)ᴴ * (L.eigh H).2 = 1 := Matrix.mem_unitaryGroup_iff'.mp h1
    rw [Matrix.mem_unitaryGroup_iff', Matrix.star_eq_conjTranspose, Matrix.conjTranspose_submatrix,
      Matrix.submatrix_mul _ _ _ _ _ Function.bijective_id |>.symm, h1']
    exact Matrix.submatrix_one_equiv _
  · obtain ⟨h1, h2⟩ := hL H hH
    ext a i
    have := congrFun (congrFun h2 a) (Tuple.sort (L.eigh H).1 i)
    rw [Matrix.mul_diagonal] at this ⊢
    exact this
  · exact Tuple.monotone_sort _

/-- Two Hamiltonians of a qubit, the colours blue and green. -/
example : ∃ (eigh : Matrix (Fin 2) (Fin 2) ℂ → (Fin 2 → ℝ) × Matrix (Fin 2) (Fin 2) ℂ) (bands : List Scatter), EighSorted eigh ∧
    energySpectrum eigh (fun i j => if i = 0 then (if j = 2 then 1 else 0) else (if j = 1 then 1 else 0))
      [!![0, 1; 1, 0], !![1, 0; 0, -1]] [0, 1] = .ok bands ∧ bands.length = 2 := by
  obtain ⟨eigh, he⟩ := eighSorted_exists 2
  obtain ⟨b, h1, h2, -⟩ := c107_energies he (fun i j => if i = 0 then (if j = 2 then 1 else 0) else (if j = 1 then 1 else 0))
    [!![0, 1; 1, 0], !![1, 0; 0, -1]] (by simp) [0, 1] rfl (by
      intro H hH
      simp only [List.mem_cons, List.not_mem_nil, or_false] at hH
      rcases hH with rfl | rfl <;> · ext i j; fin_cases i <;> fin_cases j <;> simp)
  exact ⟨eigh, b, he, h1, h2⟩

end Verif.Data
