import Verif.Cost.ClosestGrad

/-!
# C49, C50: leakage
-/

namespace Verif.Cost
open Verif Verif.Operator Verif.Solver Matrix
open scoped Kronecker

section
variable {n m : Type} [Fintype n] [DecidableEq n]

/-! ## C49 -/

/-- Unclipped leakage of a propagator. -/
noncomputable def leakOf (l : List n) (U : Matrix n n ℂ) : ℝ :=
  1 - ((U.submatrix l.get l.get)ᴴ * U.submatrix l.get l.get).trace.re / l.length

theorem trace_sub_nonneg {k : Type} [Fintype k] [DecidableEq k] (V : Matrix k k ℂ) : 0 ≤ (Vᴴ * V).trace.re := by
  have h := frobSq_eq V 0
  rw [sub_zero] at h
  rw [← h]
  exact frobSq_nonneg _ _

theorem leakOf_range {U : Matrix n n ℂ} (hU : U ∈ Matrix.unitaryGroup n ℂ) (l : List n) (hl : l.Nodup) (hne : l ≠ []) :
    0 ≤ leakOf l U ∧ leakOf l U ≤ 1 := by
  have hd : (0 : ℝ) < l.length := by exact_mod_cast List.length_pos_iff.mpr hne
  have h1 := trace_submatrix_le hU l hl
  have h2 := trace_sub_nonneg (U.submatrix l.get l.get)
  unfold leakOf
  have h3 : ((U.submatrix l.get l.get)ᴴ * U.submatrix l.get l.get).trace.re / l.length ≤ 1 := (div_le_one hd).mpr h1
  have h4 : 0 ≤ ((U.submatrix l.get l.get)ᴴ * U.submatrix l.get l.get).trace.re / l.length := div_nonneg h2 hd.le
  exact ⟨by linarith, by linarith⟩

/-- **C49** For a unitary evolution and distinct computational states the leakage lies in `[0, 1]`; the clipping at 0
changes nothing. -/
theorem c49_range (l : List n) (hl : l.Nodup) (hne : l ≠ []) (fwd : List (Matrix n n ℂ)) (U : Matrix n n ℂ)
    (hlast : fwd.getLast? = some U) (hU : U ∈ Matrix.unitaryGroup n ℂ) :
    ∃ c, leakCosts l fwd = .ok c ∧ 0 ≤ c ∧ c ≤ 1 ∧
      c = 1 - ((U.submatrix l.get l.get)ᴴ * U.submatrix l.get l.get).trace.re / l.length := by
  obtain ⟨h1, h2⟩ := leakOf_range hU l hl hne
  refine ⟨leakOf l U, ?_, h1, h2, rfl⟩
  unfold leakCosts
  rw [last_ok hlast]
  show Except.ok (max 0 (leakOf l U)) = _
  rw [max_eq_right h1]

/-- The columns of the truncated propagator. -/
theorem trace_eq_sum {k : Type} [Fintype k] (V : Matrix k k ℂ) : (Vᴴ * V).trace.re = ∑ j, ∑ i, ‖V i j‖ ^ 2 := by
  rw [Matrix.trace, Complex.re_sum]
  refine Finset.sum_congr rfl fun j _ => ?_
  rw [Matrix.diag_apply, Matrix.mul_apply, Complex.re_sum]
  refine Finset.sum_congr rfl fun i _ => ?_
  rw [Matrix.conjTranspose_apply, ← Complex.normSq_eq_norm_sq, Complex.normSq_apply]
  simp

theorem col_norm {U : Matrix n n ℂ} (hU : U ∈ Matrix.unitaryGroup n ℂ) (j : n) : ∑ i, ‖U i j‖ ^ 2 = 1 := by
  have := congrFun (congrFun (conjTranspose_mul_unitary hU) j) j
  rw [Matrix.mul_apply, Matrix.one_apply_eq] at this
  have h3 := congrArg Complex.re this
  rw [Complex.re_sum, Complex.one_re] at h3
  rw [← h3]
  refine Finset.sum_congr rfl fun i _ => ?_
  rw [Matrix.conjTranspose_apply, ← Complex.normSq_eq_norm_sq, Complex.normSq_apply]
  simp

/-- **C49** The leakage vanishes exactly if the truncated propagator is unitary. -/
theorem c49_zero_iff (l : List n) (hl : l.Nodup) (hne : l ≠ []) (fwd : List (Matrix n n ℂ)) (U : Matrix n n ℂ)
    (hlast : fwd.getLast? = some U) (hU : U ∈ Matrix.unitaryGroup n ℂ) :
    leakCosts l fwd = .ok 0 ↔ U.submatrix l.get l.get ∈ Matrix.unitaryGroup (Fin l.length) ℂ := by
  have hd : (0 : ℝ) < l.length := by exact_mod_cast List.length_pos_iff.mpr hne
  obtain ⟨c, h1, h2, h3, h4⟩ := c49_range l hl hne fwd U hlast hU
  set V := U.submatrix l.get l.get with hV
  rw [h1]
  constructor
  · intro hc
    simp only [Except.ok.injEq] at hc
    have h5 : (Vᴴ * V).trace.re = l.length := by
      rw [hc] at h4
      have : (Vᴴ * V).trace.re / l.length = 1 := by linarith
      rwa [div_eq_one_iff_eq hd.ne'] at this
    -- every column keeps its norm inside the subspace
    have hinj : Function.Injective l.get := List.nodup_iff_injective_get.mp hl
    have hcol : ∀ j : Fin l.length, ∑ i, ‖V i j‖ ^ 2 ≤ 1 := by
      intro j
      rw [← col_norm hU (l.get j)]
      show ∑ i : Fin l.length, ‖U (l.get i) (l.get j)‖ ^ 2 ≤ _
      rw [← Finset.sum_image (f := fun i => ‖U i (l.get j)‖ ^ 2) (g := l.get) (s := Finset.univ) (fun a _ b _ h => hinj h)]
      exact Finset.sum_le_univ_sum_of_nonneg fun _ => sq_nonneg _
    have hall : ∀ j : Fin l.length, ∑ i, ‖V i j‖ ^ 2 = 1 := by
      rw [trace_eq_sum] at h5
      have h6 : ∑ j : Fin l.length, (1 - ∑ i, ‖V i j‖ ^ 2) = 0 := by
        rw [Finset.sum_sub_distrib, h5]; simp
      intro j
      have := (Finset.sum_eq_zero_iff_of_nonneg fun j _ => sub_nonneg.mpr (hcol j)).mp h6 j (Finset.mem_univ _)
      linarith
    -- entries outside vanish
    have hout : ∀ (i : n) (j : Fin l.length), i ∉ l → U i (l.get j) = 0 := by
      intro i j hi
      have h7 := col_norm hU (l.get j)
      have h8 : ∑ i ∈ Finset.univ.image l.get, ‖U i (l.get j)‖ ^ 2 = 1 := by
        rw [Finset.sum_image (fun a _ b _ h => hinj h)]
        exact hall j
      have h9 : ∑ i ∈ (Finset.univ.image l.get)ᶜ, ‖U i (l.get j)‖ ^ 2 = 0 := by
        have := Finset.sum_add_sum_compl (Finset.univ.image l.get) fun i => ‖U i (l.get j)‖ ^ 2
        rw [h8, h7] at this
        linarith
      have hmem : i ∈ (Finset.univ.image l.get)ᶜ := by
        rw [Finset.mem_compl, Finset.mem_image]
        rintro ⟨a, -, rfl⟩
        exact hi (List.get_mem _ _)
      have := (Finset.sum_eq_zero_iff_of_nonneg fun _ _ => sq_nonneg _).mp h9 i hmem
      exact norm_eq_zero.mp (by simpa using this)
    rw [Matrix.mem_unitaryGroup_iff']
    ext j k
    rw [Matrix.star_eq_conjTranspose, Matrix.mul_apply]
    have h10 := congrFun (congrFun (conjTranspose_mul_unitary hU) (l.get j)) (l.get k)
    rw [Matrix.mul_apply] at h10
    have h11 : ∑ i, (Uᴴ) (l.get j) i * U i (l.get k) = ∑ i : Fin l.length, Vᴴ j i * V i k := by
      have h12 : ∑ i : Fin l.length, Vᴴ j i * V i k = ∑ i ∈ Finset.univ.image l.get, (Uᴴ) (l.get j) i * U i (l.get k) := by
        rw [Finset.sum_image (fun a _ b _ h => hinj h)]
        rfl
      rw [h12]
      symm
      refine Finset.sum_subset (Finset.subset_univ _) fun i _ hi => ?_
      have hi' : i ∉ l := by
        intro h
        apply hi
        obtain ⟨a, rfl⟩ := List.get_of_mem h
        exact Finset.mem_image_of_mem _ (Finset.mem_univ _)
      rw [hout i k hi', mul_zero]
    rw [← h11, h10, Matrix.one_apply, Matrix.one_apply]
    by_cases h : j = k
    · subst h; simp
    · rw [if_neg h, if_neg fun h' => h (hinj h')]
  · intro hu
    rw [h4, trace_unitary hu, Fintype.card_fin, div_self hd.ne', sub_self]

/-- The projector on the states outside of the computational subspace. -/
theorem projLeak_eq (l : List n) : projLeak l = Matrix.diagonal fun i => if i ∈ l then 0 else 1 := by
  ext i j
  unfold projLeak
  have hgen : ∀ M : Matrix n n ℂ, (l.foldl (fun M s => setEntry M s s 0) M) i j = if i = j ∧ i ∈ l then 0 else M i j := by
    induction l with
    | nil => simp
    | cons s l ih =>
      intro M
      rw [List.foldl_cons, ih]
      by_cases h : i = j
      · subst h
        by_cases h1 : i ∈ l
        · simp [h1]
        · simp only [h1, and_false, if_false, setEntry_apply, List.mem_cons, or_false, true_and, and_self]
      · simp only [h, false_and, if_false, setEntry_apply]
        rw [if_neg]
        rintro ⟨rfl, rfl⟩
        exact h rfl
  rw [hgen]
  by_cases h : i = j
  · subst h; simp [Matrix.diagonal]
  · simp [h]

theorem sum_mem_list (l : List n) (hl : l.Nodup) (f : n → ℝ) : ∑ i, (if i ∈ l then f i else 0) = ∑ a : Fin l.length, f (l.get a) := by
  have hinj : Function.Injective l.get := List.nodup_iff_injective_get.mp hl
  rw [← Finset.sum_filter]
  have : (Finset.univ.filter fun i => i ∈ l) = Finset.univ.image l.get := by
    ext i
    simp only [Finset.mem_filter, Finset.mem_univ, true_and, Finset.mem_image]
    constructor
    · intro h
      obtain ⟨a, rfl⟩ := List.get_of_mem h
      exact ⟨a, rfl⟩
    · rintro ⟨a, rfl⟩
      exact List.get_mem _ _
  rw [this, Finset.sum_image fun a _ b _ h => hinj h]

/-- The matrix element of the super operator of a unitary is the leakage. -/
theorem leakElement_unitary (l : List n) (hl : l.Nodup) (hne : l ≠ []) (U : Matrix n n ℂ) (hU : U ∈ Matrix.unitaryGroup n ℂ) :
    leakElement l (unitarySup U) = leakOf l U := by
  have hd : (0 : ℝ) < l.length := by exact_mod_cast List.length_pos_iff.mpr hne
  set C : Matrix n n ℂ := Matrix.diagonal fun i => if i ∈ l then 1 else 0 with hC
  have h1 : (1 : Matrix n n ℂ) - projLeak l = C := by
    rw [projLeak_eq, ← Matrix.diagonal_one, Matrix.diagonal_sub, hC]
    congr 1
    funext i
    by_cases h : i ∈ l <;> simp [h]
  have h2 : unitarySup U *ᵥ vec C = vec (U * C * Uᴴ) := by
    unfold unitarySup
    rw [conjM_eq, Matrix.kronecker_mulVec_vec, Matrix.transpose_transpose]
  have h3 : (vec (projLeak l) ⬝ᵥ vec (U * C * Uᴴ)).re = ∑ i, (if i ∈ l then 0 else ∑ a : Fin l.length, ‖U i (l.get a)‖ ^ 2) := by
    have e1 : vec (projLeak l) ⬝ᵥ vec (U * C * Uᴴ) = ∑ i, (if i ∈ l then 0 else 1) * (U * C * Uᴴ) i i := by
      rw [projLeak_eq, dotProduct, Fintype.sum_prod_type]
      refine Finset.sum_congr rfl fun j _ => ?_
      rw [Finset.sum_eq_single j]
      · simp [vec]
      · intro b _ hb
        simp [vec, Matrix.diagonal_apply_ne _ hb]
      · simp
    rw [e1, Complex.re_sum]
    refine Finset.sum_congr rfl fun i _ => ?_
    by_cases h : i ∈ l
    · simp [h]
    · rw [if_neg h, if_neg h, one_mul, Matrix.mul_apply, Complex.re_sum, ← sum_mem_list l hl fun j => ‖U i j‖ ^ 2]
      refine Finset.sum_congr rfl fun j _ => ?_
      rw [hC, Matrix.mul_diagonal, Matrix.conjTranspose_apply]
      by_cases hj : j ∈ l
      · rw [if_pos hj, if_pos hj, mul_one, ← Complex.normSq_eq_norm_sq, Complex.normSq_apply]
        simp
      · simp [hj]
  unfold leakElement
  rw [h1, h2, h3]
  have h4 : ∑ i, (if i ∈ l then (0 : ℝ) else ∑ a : Fin l.length, ‖U i (l.get a)‖ ^ 2) =
      l.length - ∑ i : Fin l.length, ∑ a : Fin l.length, ‖U (l.get i) (l.get a)‖ ^ 2 := by
    have e1 : ∀ i, (if i ∈ l then (0 : ℝ) else ∑ a : Fin l.length, ‖U i (l.get a)‖ ^ 2) =
        (∑ a : Fin l.length, ‖U i (l.get a)‖ ^ 2) - (if i ∈ l then ∑ a : Fin l.length, ‖U i (l.get a)‖ ^ 2 else 0) := by
      intro i
      by_cases h : i ∈ l <;> simp [h]
    rw [Finset.sum_congr rfl fun i _ => e1 i, Finset.sum_sub_distrib, sum_mem_list l hl fun i => ∑ a : Fin l.length, ‖U i (l.get a)‖ ^ 2,
      Finset.sum_comm, Finset.sum_congr rfl fun a _ => col_norm hU (l.get a)]
    simp
  have h5 : leakOf l U = 1 - (∑ i : Fin l.length, ∑ a : Fin l.length, ‖U (l.get i) (l.get a)‖ ^ 2) / l.length := by
    unfold leakOf
    rw [trace_eq_sum, Finset.sum_comm]
    rfl
  rw [h4, h5]
  field_simp

/-- **C49** `LeakageLiouville` with `input_unitary` is `LeakageError` for a unitary evolution. -/
theorem c49_liouville (l : List n) (hl : l.Nodup) (hne : l ≠ []) (fwd : List (Matrix n n ℂ)) (U : Matrix n n ℂ)
    (hlast : fwd.getLast? = some U) (hU : U ∈ Matrix.unitaryGroup n ℂ) : leakLiouville l fwd = leakCosts l fwd := by
  obtain ⟨c, h1, -, -, h4⟩ := c49_range l hl hne fwd U hlast hU
  rw [h1, h4]
  unfold leakLiouville
  rw [last_ok hlast]
  show Except.ok (leakElement l (unitarySup U)) = _
  rw [leakElement_unitary l hl hne U hU]
  rfl

theorem leakElement_add (l : List n) (P Q : Sup n) : leakElement l (P + Q) = leakElement l P + leakElement l Q := by
  unfold leakElement
  rw [Matrix.add_mulVec, dotProduct_add, Complex.add_re, mul_add]

theorem leakElement_smul (l : List n) (a : ℝ) (P : Sup n) : leakElement l ((a : ℂ) • P) = a * leakElement l P := by
  unfold leakElement
  rw [Matrix.smul_mulVec, dotProduct_smul, smul_eq_mul, Complex.re_ofReal_mul]
  ring

theorem leakElement_foldl (l : List n) (L : List (Matrix n n ℂ)) (S : Sup n) :
    leakElement l (L.foldl (fun S U => S + unitarySup U) S) =
      leakElement l S + (L.map fun U => leakElement l (unitarySup U)).sum := by
  induction L generalizing S with
  | nil => simp
  | cons U L ih => rw [List.foldl_cons, ih, leakElement_add, List.map_cons, List.sum_cons, add_assoc]

/-- **C49** `IncoherentLeakageError` and the Monte Carlo mode of `LeakageLiouville` are the mean over the traces of the
`LeakageError` of the single traces. -/
theorem c49_trace_average (l : List n) (hl : l.Nodup) (hne : l ≠ []) (noise : List (List (Matrix n n ℂ)))
    (hn : noise ≠ []) (h : ∀ f ∈ noise, ∃ U, f.getLast? = some U ∧ U ∈ Matrix.unitaryGroup n ℂ) :
    ∃ cs, allOk (noise.map (leakCosts l)) = .ok cs ∧ incoherentLeakCosts l noise = .ok (mean cs) ∧
      leakLiouvilleMC l noise = .ok (mean cs) := by
  have hlen : (0 : ℝ) < noise.length := by exact_mod_cast List.length_pos_iff.mpr hn
  have hex : ∀ f ∈ noise, f.getLast? = some (f.getLastD 0) ∧ f.getLastD 0 ∈ Matrix.unitaryGroup n ℂ := by
    intro f hf
    obtain ⟨U, h1, h2⟩ := h f hf
    have : f.getLastD 0 = U := by
      cases f with
      | nil => simp at h1
      | cons a f => simpa [List.getLast?_cons] using h1
    rw [this]
    exact ⟨h1, h2⟩
  refine ⟨noise.map fun f => leakOf l (f.getLastD 0), allOk_map _ _ _ fun f hf => ?_, ?_, ?_⟩
  · obtain ⟨h1, h2⟩ := hex f hf
    obtain ⟨c, k1, -, -, k4⟩ := c49_range l hl hne f _ h1 h2
    rw [k1, k4]; rfl
  · unfold incoherentLeakCosts
    rw [allOk_map noise _ (fun f => leakOf l (f.getLastD 0))]
    · rfl
    · intro f hf
      rw [last_ok (hex f hf).1]
      rfl
  · unfold leakLiouvilleMC meanSup
    rw [finals_ok noise fun f hf h0 => by obtain ⟨U, h1, -⟩ := h f hf; simp [h0] at h1]
    simp only [bind, Except.bind, pure, Except.pure]
    congr 1
    have e : (1 / (noise.length : ℂ)) = ((1 / (noise.length : ℝ) : ℝ) : ℂ) := by push_cast; rfl
    have e0 : leakElement l (0 : Sup n) = 0 := by simp [leakElement]
    rw [e, leakElement_smul, leakElement_foldl, e0, zero_add, List.map_map]
    unfold mean
    rw [List.length_map, one_div, inv_mul_eq_div]
    congr 2
    refine List.map_congr_left fun f hf => ?_
    exact leakElement_unitary l hl hne _ (hex f hf).2

/-! ## C50 -/

theorem leakOf_deriv (l : List n) {U : ℝ → Matrix n n ℂ} {U' : Matrix n n ℂ} {x : ℝ} (h : MatDeriv U U' x) :
    HasDerivAt (fun x => leakOf l (U x))
      (-2 / (l.length : ℝ) * (U'.submatrix l.get l.get * ((U x)ᴴ).submatrix l.get l.get).trace.re) x := by
  have h1 := MatDeriv.sub' h l.get
  have h2 := ((h1.conjTranspose).mul h1).trace
  have h3 : HasDerivAt (fun x => (((U x).submatrix l.get l.get)ᴴ * (U x).submatrix l.get l.get).trace.re) _ x :=
    (Complex.reCLM.hasFDerivAt).comp_hasDerivAt x h2
  have h4 := ((h3.div_const (l.length : ℝ)).const_sub 1)
  refine h4.congr_deriv ?_
  have e1 : ((U x)ᴴ).submatrix l.get l.get = ((U x).submatrix l.get l.get)ᴴ := rfl
  rw [e1]
  generalize (U x).submatrix l.get l.get = V
  generalize U'.submatrix l.get l.get = V'
  have k1 : (V'ᴴ * V).trace = star (V' * Vᴴ).trace := by
    rw [← Matrix.trace_conjTranspose, Matrix.conjTranspose_mul, Matrix.conjTranspose_conjTranspose, Matrix.trace_mul_comm]
  have k2 : (Vᴴ * V').trace = (V' * Vᴴ).trace := Matrix.trace_mul_comm _ _
  show -((V'ᴴ * V + Vᴴ * V').trace.re / (l.length : ℝ)) = _
  rw [Matrix.trace_add, k1, k2, Complex.add_re, Complex.star_def, Complex.conj_re]
  ring

/-- **C50** Entry `[t][c]` of the leakage gradient is the derivative of the leakage with respect to amplitude `c` of step
`t` wherever the clipping is inactive (positive leakage). -/
theorem c50_gradient (l : List n) (init : Matrix n n ℂ) (ps : List (Matrix n n ℂ)) (nc : Nat)
    (hnc : 0 < nc) (tr : Trace n n) (htr : tr.Of init ps nc) :
    ∃ g, leakGrad l tr.fwd tr.dP tr.rev = .ok g ∧ Rect g ps.length nc ∧
      ∀ t c P D fwds, Sweep init ps t P D fwds → tr.derivAt t c = some D →
        (∃ E, tr.fwd.getLast? = some E ∧ (((E.submatrix l.get l.get)ᴴ * E.submatrix l.get l.get).trace.re / l.length < 1)) →
        ∃ (G : ℝ) (cost : ℝ → ℝ), entry g t c = some G ∧ (∀ x, leakCosts l (fwds x) = .ok (cost x)) ∧
          leakCosts l tr.fwd = .ok (cost 0) ∧ HasDerivAt cost G 0 := by
  obtain ⟨E, hE⟩ : ∃ E, tr.fwd.getLast? = some E := by
    have : tr.fwd ≠ [] := by
      intro h0
      have := htr.forward.1
      rw [h0] at this
      simp at this
    exact ⟨_, List.getLast?_eq_some_getLast this⟩
  obtain ⟨g, h1, h2, h3⟩ := gradTable_entry htr hnc fun X =>
    -2 / (l.length : ℝ) * (X.submatrix l.get l.get * (Eᴴ).submatrix l.get l.get).trace.re
  refine ⟨g, ?_, h2, fun t c P D fwds hs hD hpos => ?_⟩
  · unfold leakGrad
    rw [last_ok hE]
    exact h1
  · obtain ⟨R, F, e1, e2, e3, e4, e5⟩ := hs.final htr
    obtain ⟨E', hE', hlt⟩ := hpos
    rw [hE] at e4 hE'
    simp only [Option.some.injEq] at e4 hE'
    subst hE'
    refine ⟨_, fun x => max 0 (leakOf l (R * P x * F)), h3 t c R D F e1 hD e2, fun x => ?_, ?_, ?_⟩
    · unfold leakCosts
      rw [last_ok (e3 x)]; rfl
    · unfold leakCosts
      rw [last_ok hE, e4]; rfl
    · have hd := leakOf_deriv l e5
      rw [← e4] at hd
      refine hd.congr_of_eventuallyEq ?_
      have h0 : 0 < leakOf l (R * P 0 * F) := by
        rw [← e4]
        unfold leakOf
        linarith
      filter_upwards [hd.continuousAt.eventually (lt_mem_nhds h0)] with x hx
      exact max_eq_right (le_of_lt hx)

/-- **C50** End to end with the Schroedinger solver. -/
theorem c50_schroedinger (p : SPar n n) (τ : List ℝ) (hv : p.Valid τ) (hst : Stable p.cfg)
    (hmeth : p.method = .frechet) (happ : p.approx = .none) (hE : p.L.ExpmOk) (hF : p.L.FrechetOk) (hne : p.xTimes τ ≠ [])
    (l : List n) (y u : Pulse) (hy : ampsOf p.cfg τ y = some u) (f : List (Matrix n n ℂ)) (E : Matrix n n ℂ)
    (hf : (readFwd p.cfg (fresh p.cfg τ y)).1 = .ok f) (hl : f.getLast? = some E)
    (hpos : ((E.submatrix l.get l.get)ᴴ * E.submatrix l.get l.get).trace.re / l.length < 1) :
    ∃ g, (gradOn (fun tr => leakGrad l tr.fwd tr.dP tr.rev) p.cfg (fresh p.cfg τ y)).1 = .ok g ∧
      Rect g (p.xTimes τ).length p.ctrl.length ∧
      ∀ t c, t < (p.xTimes τ).length → c < p.ctrl.length →
        ∀ Y : ℝ → Pulse, (∀ x, ampsOf p.cfg τ (Y x) = some (bump u t c x)) →
          ∃ (G : ℝ) (cost : ℝ → ℝ), entry g t c = some G ∧
            (∀ x, (costOn (leakCosts l) p.cfg (fresh p.cfg τ (Y x))).1 = .ok (cost x)) ∧ HasDerivAt cost G 0 := by
  have hnc : 0 < p.ctrl.length := List.length_pos_iff.mpr hv.1
  obtain ⟨f', s', q1, q2, -⟩ := (ready_fresh p τ y u hy).fwd hv hst
  have hff : f' = f := by
    rw [q1] at hf
    exact Except.ok.inj hf
  subst hff
  obtain ⟨g, h1, h2, h3⟩ := amplitude_gradient p τ hv hst hmeth happ hE hF hne (leakCosts l)
    (fun tr => leakGrad l tr.fwd tr.dP tr.rev) u _ (ready_fresh p τ y u hy)
    (fun tr htr => by
      obtain ⟨g, k1, k2, k3⟩ := c50_gradient l p.init _ _ hnc tr htr
      refine ⟨g, k1, k2, fun t c P D fwds hs hD => k3 t c P D fwds hs hD ⟨E, ?_, hpos⟩⟩
      have e : tr.fwd = f' := by
        refine List.ext_getElem? fun i => ?_
        by_cases hi : i ≤ (p.steps τ u).length
        · rw [isForward_unique htr.forward i hi, isForward_unique q2 i hi]
        · rw [List.getElem?_eq_none (by rw [htr.forward.1]; omega), List.getElem?_eq_none (by rw [q2.1]; omega)]
      rw [e]; exact hl)
  refine ⟨g, h1, h2, fun t c ht hc Y hY => ?_⟩
  obtain ⟨G, cost, k1, k2, -, k4⟩ := h3 t c ht hc (fun x => fresh p.cfg τ (Y x)) fun x => ready_fresh p τ _ _ (hY x)
  exact ⟨G, cost, k1, k2, k4⟩

end

/-- Non-vacuity: the rotated qubit leaks 16/25 out of state 0, and `c49_range`, `c49_liouville` apply. -/
example : leakCosts [(0 : Fin 2)] [1, rotP 0] = .ok (16 / 25) ∧ leakLiouville [(0 : Fin 2)] [1, rotP 0] = .ok (16 / 25) := by
  obtain ⟨c, h1, -, -, h4⟩ := c49_range [(0 : Fin 2)] (by simp) (by simp) [1, rotP 0] _ rfl (rotP_unitary 0)
  have h2 := c49_liouville [(0 : Fin 2)] (by simp) (by simp) [1, rotP 0] _ rfl (rotP_unitary 0)
  have : c = 16 / 25 := by
    rw [h4, trace_eq_sum]
    simp only [List.length_singleton, Finset.univ_unique, Finset.sum_singleton, Matrix.submatrix_apply, rotP_zero]
    show 1 - ‖rot0 0 0‖ ^ 2 / _ = _
    have : rot0 0 0 = ((3 / 5 : ℝ) : ℂ) := by simp [rot0]
    rw [this, Complex.norm_real]
    norm_num
  subst this
  exact ⟨h1, h2.trans h1⟩

/-- `c49_trace_average` applies to two traces. -/
example : ∃ cs, incoherentLeakCosts [(1 : Fin 2)] [[1, rotP 1], [1, rotP 2]] = .ok (mean cs) ∧
    leakLiouvilleMC [(1 : Fin 2)] [[1, rotP 1], [1, rotP 2]] = .ok (mean cs) := by
  obtain ⟨cs, -, h2, h3⟩ := c49_trace_average [(1 : Fin 2)] (by simp) (by simp) [[1, rotP 1], [1, rotP 2]] (by simp) (by
    intro f hf
    simp only [List.mem_cons, List.not_mem_nil, or_false] at hf
    rcases hf with rfl | rfl
    · exact ⟨_, rfl, rotP_unitary 1⟩
    · exact ⟨_, rfl, rotP_unitary 2⟩)
  exact ⟨cs, h2, h3⟩

/-- `c50_gradient` applies to the rotated qubit (positive leakage). -/
example : ∃ g G, ∃ cost : ℝ → ℝ, leakGrad [(0 : Fin 2)] rotTrace.fwd rotTrace.dP rotTrace.rev = .ok g ∧ entry g 0 0 = some G ∧
    HasDerivAt cost G 0 := by
  obtain ⟨g, h1, -, h3⟩ := c50_gradient [(0 : Fin 2)] 1 [rot0] 1 (by norm_num) rotTrace rotTrace_of
  obtain ⟨G, cost, k1, -, -, k4⟩ := h3 0 0 _ _ _ rot_sweep rfl ⟨rot0, rfl, by
    rw [trace_eq_sum]
    simp only [List.length_singleton, Finset.univ_unique, Finset.sum_singleton, Matrix.submatrix_apply]
    show ‖rot0 0 0‖ ^ 2 / _ < _
    have : rot0 0 0 = ((3 / 5 : ℝ) : ℂ) := by simp [rot0]
    rw [this, Complex.norm_real]
    norm_num⟩
  exact ⟨g, G, cost, h1, k1, k4⟩

end Verif.Cost
