import Mathlib.Topology.MetricSpace.HausdorffDistance
import Verif.Cost.OpenSampled
import Verif.Cost.Existence

/-!
# C139: the master equation with continuous Hamiltonians and rates has a solution

The statements of C139 are about density matrices which follow a master equation.  For continuous Hamiltonians and rates, which are not
negative, every density matrix evolves in this way: the solutions of the linear equation remain density matrices.
-/

namespace Verif.Cost
open Verif Verif.Operator Verif.Solver Matrix
open scoped Kronecker ComplexOrder Topology

section Invariant
variable {E : Type*} [NormedAddCommGroup E] [NormedSpace ℝ E]

/-- Solutions of `X' = A s X` stay in a closed set which is preserved by the evolutions with constant generators `A s`. -/
theorem invariant {P : Set E} (hP : IsClosed P) {A : ℝ → E →L[ℝ] E} {X : ℝ → E} {b M : ℝ} (h0 : X 0 ∈ P)
    (hc : ContinuousOn X (Set.Icc 0 b)) (hd : ∀ s ∈ Set.Ico 0 b, HasDerivWithinAt X (A s (X s)) (Set.Ici s) s)
    (hM : ∀ s ∈ Set.Ico 0 b, ‖A s‖ ≤ M)
    (hΦ : ∀ s ∈ Set.Ico 0 b, ∃ Φ : ℝ → E →L[ℝ] E, Φ 0 = 1 ∧ HasDerivAt Φ (A s) 0 ∧ ∀ h, 0 ≤ h → ∀ x ∈ P, Φ h x ∈ P) :
    ∀ s ∈ Set.Icc 0 b, X s ∈ P := by
  have hne : P.Nonempty := ⟨_, h0⟩
  have key := le_gronwallBound_of_liminf_deriv_right_le (f := fun s => Metric.infDist (X s) P)
    (f' := fun s => ‖A s‖ * Metric.infDist (X s) P) (δ := 0) (K := M) (ε := 0) (a := 0) (b := b)
    ((Metric.continuous_infDist_pt P).comp_continuousOn hc) ?_ ?_ ?_
  · intro s hs
    have h := key s hs
    rw [gronwallBound_ε0_δ0] at h
    exact (hP.mem_iff_infDist_zero hne).2 (le_antisymm h Metric.infDist_nonneg)
  · intro s hs r hr
    obtain ⟨Φ, hΦ0, hΦd, hΦP⟩ := hΦ s hs
    set d := Metric.infDist (X s) P with hdd
    have hd0 : 0 ≤ d := Metric.infDist_nonneg
    obtain ⟨η, hη, hη'⟩ : ∃ η > 0, η * (1 + d) < r - ‖A s‖ * d := by
      refine ⟨(r - ‖A s‖ * d) / (2 * (1 + d)), div_pos (by linarith) (by linarith), ?_⟩
      rw [div_mul_eq_mul_div, div_lt_iff₀ (by linarith)]
      nlinarith
    have hsh : HasDerivAt (fun z => Φ (z - s)) (A s) s := by
      have h1 : HasDerivAt Φ (A s) (s - s) := by rwa [sub_self]
      have := HasDerivAt.scomp (h := fun z => z - s) s h1 ((hasDerivAt_id s).sub_const s)
      simpa [Function.comp_def] using this
    have e1 : ∀ᶠ z in 𝓝[>] s, ‖X z - Φ (z - s) (X s)‖ ≤ η * (z - s) := by
      have h1 : HasDerivWithinAt (fun z => Φ (z - s) (X s)) (A s (X s)) (Set.Ici s) s :=
        ((ContinuousLinearMap.apply ℝ E (X s)).hasFDerivAt.comp_hasDerivAt s hsh).hasDerivWithinAt
      have h2 := (hd s hs).sub h1
      have h3 := (hasDerivWithinAt_iff_isLittleO.1 h2).bound hη
      have h4 := h3.filter_mono (nhdsWithin_mono s Set.Ioi_subset_Ici_self)
      filter_upwards [h4, self_mem_nhdsWithin] with z hz hz'
      have h5 : (0 : ℝ) ≤ z - s := sub_nonneg.2 (le_of_lt hz')
      simpa [hΦ0, abs_of_nonneg h5] using hz
    have e2 : ∀ᶠ z in 𝓝[>] s, ‖Φ (z - s)‖ ≤ 1 + (‖A s‖ + η) * (z - s) := by
      have h3 := (hasDerivAt_iff_isLittleO.1 hsh).bound hη
      filter_upwards [h3.filter_mono nhdsWithin_le_nhds, self_mem_nhdsWithin] with z hz hz'
      have h5 : (0 : ℝ) ≤ z - s := sub_nonneg.2 (le_of_lt hz')
      rw [sub_self, hΦ0, Real.norm_eq_abs, abs_of_nonneg h5] at hz
      have e : Φ (z - s) = (Φ (z - s) - 1 - (z - s) • A s) + 1 + (z - s) • A s := by abel
      have h6 := norm_add₃_le (a := Φ (z - s) - 1 - (z - s) • A s) (b := 1) (c := (z - s) • A s)
      rw [← e, norm_smul, Real.norm_eq_abs, abs_of_nonneg h5] at h6
      have h7 : ‖(1 : E →L[ℝ] E)‖ ≤ 1 := ContinuousLinearMap.norm_id_le
      linarith
    refine Filter.Eventually.frequently ?_
    filter_upwards [e1, e2, self_mem_nhdsWithin] with z hz1 hz2 hz'
    have h5 : (0 : ℝ) < z - s := sub_pos.2 hz'
    have h6 : Metric.infDist (Φ (z - s) (X s)) P ≤ ‖Φ (z - s)‖ * d := by
      refine le_of_forall_pos_le_add fun ε hε => ?_
      have hN : 0 < ‖Φ (z - s)‖ + 1 := by positivity
      obtain ⟨y, hy, hyd⟩ := (Metric.infDist_lt_iff hne).1 (show Metric.infDist (X s) P < d + ε / (‖Φ (z - s)‖ + 1) by
        rw [← hdd]; have := div_pos hε hN; linarith)
      refine (Metric.infDist_le_dist_of_mem (hΦP _ h5.le y hy)).trans ?_
      rw [dist_eq_norm, ← map_sub]
      refine ((Φ (z - s)).le_opNorm _).trans ?_
      rw [dist_eq_norm] at hyd
      have h8 := mul_le_mul_of_nonneg_left hyd.le (norm_nonneg (Φ (z - s)))
      have h9 : ‖Φ (z - s)‖ * (ε / (‖Φ (z - s)‖ + 1)) ≤ ε := by
        rw [← mul_div_assoc, div_le_iff₀ hN]
        nlinarith
      linarith [mul_add ‖Φ (z - s)‖ d (ε / (‖Φ (z - s)‖ + 1))]
    have h7 := Metric.infDist_le_infDist_add_dist (s := P) (x := X z) (y := Φ (z - s) (X s))
    rw [dist_eq_norm] at h7
    have h8 := mul_le_mul_of_nonneg_right hz2 hd0
    rw [inv_mul_lt_iff₀ h5]
    nlinarith
  · show Metric.infDist (X 0) P ≤ 0
    rw [Metric.infDist_zero_of_mem h0]
  · intro s hs
    show ‖A s‖ * _ ≤ M * _ + 0
    rw [add_zero]
    exact mul_le_mul_of_nonneg_right (hM s hs) Metric.infDist_nonneg

end Invariant

section
open scoped Matrix.Norms.L2Operator
variable {n : Type} [Fintype n] [DecidableEq n]

omit [DecidableEq n] in
/-- The density matrices form a closed set. -/
theorem density_closed : IsClosed {X : Matrix n n ℂ | X.PosSemidef ∧ X.trace = 1} := by
  have h1 : IsClosed {X : Matrix n n ℂ | X.trace = 1} := isClosed_eq continuous_id.matrix_trace continuous_const
  have h2 : IsClosed {X : Matrix n n ℂ | X.PosSemidef} := by
    have e : {X : Matrix n n ℂ | X.PosSemidef} = {X | Xᴴ = X} ∩ ⋂ v : n → ℂ, {X | 0 ≤ star v ⬝ᵥ (X *ᵥ v)} := by
      ext X
      simp only [Set.mem_inter_iff, Set.mem_iInter, Set.mem_ofPred_eq]
      exact ⟨fun h => ⟨h.isHermitian, fun v => h.dotProduct_mulVec_nonneg v⟩, fun h => .of_dotProduct_mulVec_nonneg h.1 h.2⟩
    rw [e]
    refine (isClosed_eq continuous_id.matrix_conjTranspose continuous_id).inter (isClosed_iInter fun v => ?_)
    exact isClosed_le continuous_const (continuous_const.dotProduct (continuous_id.matrix_mulVec continuous_const))
  exact h2.inter h1

/-- Super operators as linear maps of matrices. -/
noncomputable def supL (n : Type) [Fintype n] [DecidableEq n] : Sup n →L[ℝ] Matrix n n ℂ →L[ℝ] Matrix n n ℂ :=
  LinearMap.toContinuousLinearMap
    { toFun := fun G => LinearMap.toContinuousLinearMap
        { toFun := fun X => unvec (G *ᵥ vec X)
          map_add' := fun X Y => by rw [vec_add, Matrix.mulVec_add]; rfl
          map_smul' := fun r X => by
            show unvec (G *ᵥ vec (r • X)) = r • unvec (G *ᵥ vec X)
            rw [show vec (r • X) = r • vec X from rfl, Matrix.mulVec_smul]
            rfl }
      map_add' := fun G G' => by
        ext X : 1
        show unvec ((G + G') *ᵥ vec X) = unvec (G *ᵥ vec X) + unvec (G' *ᵥ vec X)
        rw [Matrix.add_mulVec]
        rfl
      map_smul' := fun r G => by
        ext X : 1
        show unvec ((r • G) *ᵥ vec X) = r • unvec (G *ᵥ vec X)
        rw [Matrix.smul_mulVec]
        rfl }

theorem supL_apply (G : Sup n) (X : Matrix n n ℂ) : supL n G X = unvec (G *ᵥ vec X) := rfl

/-- The generator of a master equation. -/
noncomputable def masterGen (H : Matrix n n ℂ) (ws : List (ℝ × Matrix n n ℂ)) : Sup n := supGen ((-Complex.I) • H) (wDiss ws)

theorem masterGen_mulVec {H : Matrix n n ℂ} (hH : H.IsHermitian) (ws : List (ℝ × Matrix n n ℂ)) (X : Matrix n n ℂ) :
    masterGen H ws *ᵥ vec X = vec (master H ws X) := by
  unfold masterGen
  rw [supGen_mulVec _ _ hH, wDiss_mulVec, ← vec_add]
  rfl

omit [Fintype n] [DecidableEq n] in
theorem zip_sum {M : Type*} [AddCommMonoid M] {Ls : List (Matrix n n ℂ)} {w : List ℝ} (h : w.length = Ls.length)
    (f : ℝ × Matrix n n ℂ → M) : ((w.zip Ls).map f).sum = ∑ k : Fin Ls.length, f (w.getD k 0, Ls.get k) := by
  have e : (w.zip Ls).map f = List.ofFn fun k : Fin Ls.length => f (w.getD k 0, Ls.get k) := by
    refine List.ext_getElem (by simp [h]) fun i h1 h2 => ?_
    have h3 : i < w.length := by simp at h1; omega
    simp [List.getD_eq_getElem?_getD, h3]
  rw [e, List.sum_ofFn]

theorem masterGen_cont {H : ℝ → Matrix n n ℂ} {w : ℝ → List ℝ} {Ls : List (Matrix n n ℂ)} {I : Set ℝ} (hH : ContinuousOn H I)
    (hl : ∀ s ∈ I, (w s).length = Ls.length) (hw : ∀ k < Ls.length, ContinuousOn (fun s => (w s).getD k 0) I) :
    ContinuousOn (fun s => masterGen (H s) ((w s).zip Ls)) I := by
  have h1 : ContinuousOn (fun s => supGen ((-Complex.I) • H s) (∑ k : Fin Ls.length, (((w s).getD k 0 : ℝ) : ℂ) • dissOf (Ls.get k))) I := by
    have hs : ∀ k ∈ (Finset.univ : Finset (Fin Ls.length)), ContinuousOn (fun s => (((w s).getD k 0 : ℝ) : ℂ) • dissOf (Ls.get k)) I := by
      intro k _
      have h2 : ContinuousOn (fun s => (((w s).getD k 0 : ℝ) : ℂ)) I := Complex.continuous_ofReal.comp_continuousOn (hw k k.2)
      exact h2.smul (continuousOn_const (c := dissOf (Ls.get k)))
    have hD := continuousOn_finsetSum _ hs
    have hG := hH.const_smul (-Complex.I)
    unfold supGen
    refine ContinuousOn.add (ContinuousOn.add ?_ ?_) hD
    · refine Continuous.comp_continuousOn (g := fun g : Matrix n n ℂ => (1 : Matrix n n ℂ) ⊗ₖ g) ?_ hG
      exact continuous_matrix fun i j => continuous_const.mul (continuous_id.matrix_elem _ _)
    · refine Continuous.comp_continuousOn (g := fun g : Matrix n n ℂ => conjM g ⊗ₖ (1 : Matrix n n ℂ)) ?_ hG
      exact continuous_matrix fun i j => (Complex.continuous_conj.comp (continuous_id.matrix_elem _ _)).mul continuous_const
  refine h1.congr fun s hs => ?_
  simp only [masterGen, wDiss]
  rw [zip_sum (hl s hs)]

/-- **C139** For continuous Hamiltonians and rates, which are not negative, every density matrix evolves according to the master equation
and remains a density matrix. -/
theorem c139_solution (H : ℝ → Matrix n n ℂ) (w : ℝ → List ℝ) (Ls : List (Matrix n n ℂ)) (S : ℝ) (hS : 0 ≤ S)
    (hH : ∀ s ∈ Set.Icc 0 S, (H s).IsHermitian) (hHc : ContinuousOn H (Set.Icc 0 S))
    (hl : ∀ s ∈ Set.Icc 0 S, (w s).length = Ls.length) (hw0 : ∀ s ∈ Set.Icc 0 S, ∀ r ∈ w s, 0 ≤ r)
    (hw : ∀ k < Ls.length, ContinuousOn (fun s => (w s).getD k 0) (Set.Icc 0 S))
    (ρ₀ : Matrix n n ℂ) (h0 : ρ₀.PosSemidef) (h1 : ρ₀.trace = 1) : ∃ ρ, ρ 0 = ρ₀ ∧ OpenEvolves H w Ls S ρ := by
  have hA : ContinuousOn (fun s => supL n (masterGen (H s) ((w s).zip Ls))) (Set.Icc 0 S) :=
    (supL n).continuous.comp_continuousOn (masterGen_cont hHc hl hw)
  have hap : ∀ s ∈ Set.Icc 0 S, ∀ X, supL n (masterGen (H s) ((w s).zip Ls)) X = master (H s) ((w s).zip Ls) X := by
    intro s hs X
    rw [supL_apply, masterGen_mulVec (hH s hs)]
    rfl
  obtain ⟨ρ, k1, k2, k3⟩ := solvable_linear hS hA ρ₀
  obtain ⟨M, hM⟩ := isCompact_Icc.exists_bound_of_continuousOn hA
  have hst := invariant (density_closed (n := n)) (A := fun s => supL n (masterGen (H s) ((w s).zip Ls))) (X := ρ) (b := S) (M := M)
    (by rw [k1]; exact ⟨h0, h1⟩) k2 k3 (fun s hs => hM s (Set.Ico_subset_Icc_self hs)) (by
      intro s hs
      have hs' := Set.Ico_subset_Icc_self hs
      have hzip : ∀ q ∈ (w s).zip Ls, 0 ≤ q.1 := fun q hq => hw0 s hs' _ (List.of_mem_zip hq).1
      refine ⟨fun h => supL n (NormedSpace.exp ((h : ℂ) • masterGen (H s) ((w s).zip Ls))), ?_, ?_, ?_⟩
      · ext X : 1
        rw [supL_apply]
        simp only [Complex.ofReal_zero, zero_smul, NormedSpace.exp_zero, Matrix.one_mulVec]
        rfl
      · refine (supL n).hasFDerivAt.comp_hasDerivAt (0 : ℝ) ?_
        have := expPiece_deriv (masterGen (H s) ((w s).zip Ls)) 1 0 0
        simpa using this
      · rintro h hh X ⟨hX, hX1⟩
        obtain ⟨Y, e1, hY⟩ := (cp_exp (hH s hs') _ hzip (masterGen_mulVec (hH s hs') _) h hh).positive X hX
        obtain ⟨Z, e2, hZ, -⟩ := physical_exp (hH s hs') _ (masterGen_mulVec (hH s hs') ((w s).zip Ls)) h X
        have e3 : Y = Z := by
          have := e1.symm.trans e2
          exact congrArg unvec this
        have e4 : supL n (NormedSpace.exp ((h : ℂ) • masterGen (H s) ((w s).zip Ls))) X = Y := by
          rw [supL_apply, e1]
          rfl
        show _ ∧ _
        rw [e4]
        exact ⟨hY, by rw [e3, hZ, hX1]⟩)
  refine ⟨ρ, k1, hst, k2, fun s hs => ?_⟩
  rw [← hap s (Set.Ico_subset_Icc_self hs)]
  exact k3 s hs

theorem mismatch_le {Ls : List (Matrix n n ℂ)} {H K : Matrix n n ℂ} {w v : List ℝ} {η : ℝ} (hH : ‖H - K‖ ≤ η)
    (hw : ∀ k < Ls.length, |w.getD k 0 - v.getD k 0| ≤ η) (hwl : w.length = Ls.length) (hvl : v.length = Ls.length) :
    mismatch Ls H K w v ≤ η * (2 + (Ls.map fun L => 2 * ‖L‖ ^ 2).sum) := by
  have key : (((w.zip v).zip Ls).map fun q => |q.1.1 - q.1.2| * (2 * ‖q.2‖ ^ 2)).sum ≤ η * (Ls.map fun L => 2 * ‖L‖ ^ 2).sum := by
    clear hH
    induction Ls generalizing w v with
    | nil => simp
    | cons L Ls ih =>
      obtain ⟨a, w, rfl⟩ := List.exists_cons_of_length_eq_add_one hwl
      obtain ⟨b, v, rfl⟩ := List.exists_cons_of_length_eq_add_one hvl
      have h1 := ih (w := w) (v := v) (fun k hk => by simpa using hw (k + 1) (by simpa using hk)) (by simpa using hwl) (by simpa using hvl)
      have h2 : |a - b| ≤ η := by simpa using hw 0 (by simp)
      simp only [List.zip_cons_cons, List.map_cons, List.sum_cons]
      have h3 : |a - b| * (2 * ‖L‖ ^ 2) ≤ η * (2 * ‖L‖ ^ 2) := mul_le_mul_of_nonneg_right h2 (by positivity)
      linarith [mul_add η (2 * ‖L‖ ^ 2) (Ls.map fun L => 2 * ‖L‖ ^ 2).sum]
  unfold mismatch
  linarith [mul_add η 2 (Ls.map fun L => 2 * ‖L‖ ^ 2).sum]

/-- **C139** A constant drift, continuous controls and rates which are continuous functions `g` of the amplitudes: every density matrix
has an exact evolution, and the expectation values computed by the solver with amplitudes sampled anywhere in the time steps converge to
it, at all times of the grid: for every `ε` all sufficiently fine time grids, equidistant or not, reproduce them up to `ε`. -/
theorem c139_converges (p : LPar n) (H₀ : Matrix n n ℂ) (Ls : List (Matrix n n ℂ)) (S : ℝ) (hS : 0 ≤ S)
    (v : ℝ → Fin p.ctrl.length → ℝ) (hv : ∀ c, ContinuousOn (fun s => v s c) (Set.Icc 0 S))
    (g : (Fin p.ctrl.length → ℝ) → List ℝ) (hgl : ∀ r, (g r).length = Ls.length) (hg0 : ∀ r, ∀ a ∈ g r, 0 ≤ a)
    (hgc : ∀ k < Ls.length, Continuous fun r => (g r).getD k 0)
    (hH₀ : H₀.IsHermitian) (hcH : ∀ H ∈ p.ctrl, H.IsHermitian) (hm : p.method = .frechet) (hE : p.L.ExpmOk) (hi : p.init = 1)
    (ρ₀ : Matrix n n ℂ) (h0 : ρ₀.PosSemidef) (h1 : ρ₀.trace = 1) :
    ∃ ρ, ρ 0 = ρ₀ ∧ OpenEvolves (continuousHam (fun _ => H₀) p.ctrl.get v) (fun s => g (v s)) Ls S ρ ∧
      ∀ ε > 0, ∃ δ > 0, ∀ (times : List ℝ) (x : Pulse), times ≠ [] → (∀ τ ∈ times, 0 ≤ τ ∧ τ ≤ δ) → times.sum = S →
        ∀ ξ : Fin times.length → ℝ,
          (∀ t : Fin times.length, ξ t ∈ Set.Icc (gridPoint (fun t : Fin times.length => times[t]) t)
            (gridPoint (fun t : Fin times.length => times[t]) (t + 1))) →
          ({ p with drift := List.replicate times.length H₀ } : LPar n).Lindblads Ls times (rowsOf fun t => v (ξ t)) x →
          (∀ t : Fin times.length, weightsAt p Ls (rowsOf fun t => v (ξ t)) x t = g (v (ξ t))) →
          ∃ f, ({ p with drift := List.replicate times.length H₀ } : LPar n).fwd times (rowsOf fun t => v (ξ t)) x = .ok f ∧
            ∀ (A : Matrix n n ℂ) (m : Nat), m ≤ times.length →
              ‖(A * stateAt f m ρ₀).trace - (A * ρ (gridPoint (fun t : Fin times.length => times[t]) m)).trace‖ ≤ ‖A‖ * ε := by
  have hHc : ContinuousOn (continuousHam (fun _ => H₀) p.ctrl.get v) (Set.Icc 0 S) := by
    have hsum : ∀ c ∈ Finset.univ, ContinuousOn (fun s => ((v s c : ℝ) : ℂ) • p.ctrl.get c) (Set.Icc 0 S) := by
      intro c _
      have h2 : ContinuousOn (fun s => ((v s c : ℝ) : ℂ)) (Set.Icc 0 S) := Complex.continuous_ofReal.comp_continuousOn (hv c)
      exact h2.smul (continuousOn_const (c := p.ctrl.get c))
    exact (continuousOn_const (c := H₀)).add (continuousOn_finsetSum _ hsum)
  have hHh : ∀ s, (continuousHam (fun _ => H₀) p.ctrl.get v s).IsHermitian := by
    intro s
    unfold continuousHam
    refine hH₀.add ?_
    show (∑ c, ((v s c : ℝ) : ℂ) • p.ctrl.get c)ᴴ = _
    rw [Matrix.conjTranspose_sum]
    refine Finset.sum_congr rfl fun c _ => ?_
    rw [Matrix.conjTranspose_smul, (hcH _ (List.get_mem _ _)).eq]
    simp
  have hvc : ContinuousOn v (Set.Icc 0 S) := continuousOn_pi.mpr hv
  have hwc : ∀ k < Ls.length, ContinuousOn (fun s => (g (v s)).getD k 0) (Set.Icc 0 S) := fun k hk => (hgc k hk).comp_continuousOn hvc
  obtain ⟨ρ, k1, k2⟩ := c139_solution (continuousHam (fun _ => H₀) p.ctrl.get v) (fun s => g (v s)) Ls S hS (fun s _ => hHh s) hHc
    (fun s _ => hgl _) (fun s _ => hg0 _) hwc ρ₀ h0 h1
  refine ⟨ρ, k1, k2, fun ε hε => ?_⟩
  have hF : ContinuousOn (fun s => (continuousHam (fun _ => H₀) p.ctrl.get v s, fun k : Fin Ls.length => (g (v s)).getD k 0)) (Set.Icc 0 S) :=
    hHc.prodMk (continuousOn_pi.mpr fun k => hwc k k.2)
  have hu := isCompact_Icc.uniformContinuousOn_of_continuous hF
  set C : ℝ := 2 + (Ls.map fun L => 2 * ‖L‖ ^ 2).sum with hC
  have hC0 : 0 ≤ C := by
    have : 0 ≤ (Ls.map fun L => 2 * ‖L‖ ^ 2).sum := List.sum_nonneg fun a ha => by
      obtain ⟨L, -, rfl⟩ := List.mem_map.1 ha
      positivity
    linarith
  have hpos : 0 < S * C + 1 := by have := mul_nonneg hS hC0; linarith
  obtain ⟨δ, hδ, hδ'⟩ := Metric.uniformContinuousOn_iff.mp hu _ (div_pos hε hpos)
  refine ⟨δ / 2, by linarith, fun times x hne hτ hsum ξ hξ hL hW => ?_⟩
  set σ : Fin times.length → ℝ := fun t => times[t] with hσ
  have hσ0 : ∀ t, 0 ≤ σ t := fun t => (hτ _ (List.getElem_mem _)).1
  have hSum : ∑ t, σ t = S := by rw [← hsum]; exact sum_getElem_list times
  have hb : ∀ t : Nat, t ≤ times.length → gridPoint σ t ∈ Set.Icc 0 S := fun t ht =>
    ⟨by rw [← gridPoint_zero σ]; exact gridPoint_mono hσ0 (Nat.zero_le _),
      by rw [← hSum, ← gridPoint_last σ]; exact gridPoint_mono hσ0 ht⟩
  have hsh := rowsOf_shape fun t => v (ξ t)
  obtain ⟨f, f1, -, f2⟩ := c139_deviation { p with drift := List.replicate times.length H₀ } Ls times (rowsOf fun t => v (ξ t)) x hL hne
    (by simp) hsh.1 hsh.2 (fun H hH => by rw [List.eq_of_mem_replicate hH]; exact hH₀) hcH hm hE hi (fun τ h => (hτ τ h).1)
    (by
      intro q hq row hrow a ha
      obtain ⟨q1, q2⟩ := hL.2.2.2 q hq
      obtain ⟨i, hi', rfl⟩ := List.getElem_of_mem hrow
      have h := hW ⟨i, by rw [← q1]; exact hi'⟩
      have hq' : p.diss.prefactor = some q := hq
      simp only [weightsAt, hq'] at h
      rw [List.getD_eq_getElem _ _ hi'] at h
      rw [h] at ha
      exact hg0 _ a ha)
  refine ⟨f, f1, fun A m hmN => ?_⟩
  have key := f2 _ _ ρ (fun _ => ε / (S * C + 1) * C) (by rw [hsum]; exact k2) (fun _ _ => hgl _) (fun t s hs => by
    have g1 := hb t t.2.le
    have g2 := hb (t + 1) t.2
    have g3 : gridPoint σ (t + 1) = gridPoint σ t + σ t := gridPoint_succ _ t
    have g4 := hξ t
    have g5 : σ t ≤ δ / 2 := (hτ _ (List.getElem_mem _)).2
    have hd := hδ' s ⟨g1.1.trans hs.1, hs.2.le.trans g2.2⟩ (ξ t) ⟨g1.1.trans g4.1, g4.2.trans g2.2⟩ (by
      rw [Real.dist_eq, abs_lt]
      constructor <;> linarith [hs.1, hs.2, g4.1, g4.2])
    rw [Prod.dist_eq, max_lt_iff] at hd
    have hham : hamiltonian ((List.replicate times.length H₀).getD t 0) p.ctrl ((rowsOf fun t => v (ξ t)).getD t []) =
        continuousHam (fun _ => H₀) p.ctrl.get v (ξ t) := by
      rw [rowsOf_get _ t t.2, hamiltonian_eq_sum _ _ _ (by simp)]
      simp [continuousHam, List.getD_eq_getElem?_getD]
    have hWt : weightsAt ({ p with drift := List.replicate times.length H₀ } : LPar n) Ls (rowsOf fun t => v (ξ t)) x t = g (v (ξ t)) := hW t
    rw [hWt]
    show mismatch Ls _ (hamiltonian ((List.replicate times.length H₀).getD t 0) p.ctrl ((rowsOf fun t => v (ξ t)).getD t [])) _ _ ≤ _
    rw [hham]
    refine mismatch_le (by rw [← dist_eq_norm]; exact hd.1.le) (fun k hk => ?_) (hgl _) (hgl _)
    have := (dist_le_pi_dist _ _ (⟨k, hk⟩ : Fin Ls.length)).trans hd.2.le
    rw [Real.dist_eq] at this
    exact this) A m hmN
  rw [k1] at key
  refine key.trans (mul_le_mul_of_nonneg_left ?_ (norm_nonneg A))
  have hη : 0 ≤ ε / (S * C + 1) * C := mul_nonneg (div_pos hε hpos).le hC0
  calc (∑ t : Fin times.length, if (t : Nat) < m then times[t] * (ε / (S * C + 1) * C) else 0)
      ≤ ∑ t : Fin times.length, times[t] * (ε / (S * C + 1) * C) := by
        refine Finset.sum_le_sum fun t _ => ?_
        split
        · exact le_rfl
        · exact mul_nonneg (hσ0 t) hη
    _ = S * (ε / (S * C + 1) * C) := by rw [← Finset.sum_mul, sum_getElem_list, hsum]
    _ ≤ ε := by
        rw [show S * (ε / (S * C + 1) * C) = ε * (S * C) / (S * C + 1) by ring, div_le_iff₀ hpos]
        nlinarith

namespace Ex139

/-- A driven qubit in a field which decays with a rate given by the square of the amplitude. -/
noncomputable def driven (L : Lapack (Fin 2 × Fin 2)) : LPar (Fin 2) :=
  ⟨L, .frechet, false, 1, [], [!![0, 1; 1, 0]],
    ⟨none, some [!![0, 1; 0, 0]], some fun u _ => u.map fun row => row.map fun a => a ^ 2, none, none, none⟩⟩

/-- `c139_converges` applies: the amplitude oscillates, equal time steps, sampled at their start. -/
example : ∃ (L : Lapack (Fin 2 × Fin 2)) (ρ : ℝ → Matrix (Fin 2) (Fin 2) ℂ), ρ 0 = !![1, 0; 0, 0] ∧
    OpenEvolves (continuousHam (fun _ => !![1, 0; 0, -1]) (driven L).ctrl.get fun s _ => Real.cos s) (fun s => [Real.cos s ^ 2])
      [!![0, 1; 0, 0]] 1 ρ ∧ ∀ ε > 0, ∃ N : Nat, 0 < N ∧
      ∃ f, ({ driven L with drift := List.replicate (List.replicate N (1 / N : ℝ)).length !![1, 0; 0, -1] } : LPar (Fin 2)).fwd
          (List.replicate N (1 / N : ℝ)) (rowsOf fun (t : Fin (List.replicate N (1 / N : ℝ)).length) (_ : Fin 1) =>
            Real.cos (gridPoint (fun t : Fin (List.replicate N (1 / N : ℝ)).length => (List.replicate N (1 / N : ℝ))[t]) t)) [] = .ok f ∧
        ∀ (A : Matrix (Fin 2) (Fin 2) ℂ) (m : Nat), m ≤ (List.replicate N (1 / N : ℝ)).length →
          ‖(A * stateAt f m !![1, 0; 0, 0]).trace -
            (A * ρ (gridPoint (fun t : Fin (List.replicate N (1 / N : ℝ)).length => (List.replicate N (1 / N : ℝ))[t]) m)).trace‖ ≤ ‖A‖ * ε := by
  obtain ⟨L, -, -, hE, -⟩ := lapack_exists (Fin 2 × Fin 2)
  obtain ⟨ρ, h1, h2, h3⟩ := c139_converges (driven L) !![1, 0; 0, -1] [!![0, 1; 0, 0]] 1 zero_le_one (fun s _ => Real.cos s)
    (fun c => Real.continuous_cos.continuousOn) (fun r => [r (0 : Fin 1) ^ 2]) (fun _ => rfl)
    (fun r a ha => by rw [List.mem_singleton.1 ha]; positivity)
    (fun k hk => by
      have : k = 0 := by simpa using hk
      subst this
      exact (continuous_apply (0 : Fin 1)).pow 2)
    (by ext i j; fin_cases i <;> fin_cases j <;> simp)
    (by
      intro H hH
      rw [show (driven L).ctrl = [!![0, 1; 1, 0]] from rfl, List.mem_singleton] at hH
      subst hH
      ext i j
      fin_cases i <;> fin_cases j <;> simp)
    rfl hE rfl !![1, 0; 0, 0]
    (by
      rw [show (!![1, 0; 0, 0] : Matrix (Fin 2) (Fin 2) ℂ) = Matrix.diagonal ![1, 0] by ext i j; fin_cases i <;> fin_cases j <;> simp,
        Matrix.posSemidef_diagonal_iff]
      intro i
      fin_cases i <;> simp)
    (by simp [Matrix.trace_fin_two])
  refine ⟨L, ρ, h1, h2, fun ε hε => ?_⟩
  obtain ⟨δ, hδ, h4⟩ := h3 ε hε
  obtain ⟨N, hN⟩ := exists_nat_gt (max (1 / δ) 0)
  have hN0 : (0 : ℝ) < N := (le_max_right _ _).trans_lt hN
  have hN1 : 0 < N := by exact_mod_cast hN0
  have hne : List.replicate N (1 / N : ℝ) ≠ [] := fun h => hN1.ne' (by simpa using congrArg List.length h)
  have hstep : ∀ t : Fin (List.replicate N (1 / N : ℝ)).length, 0 ≤ (List.replicate N (1 / N : ℝ))[t] := fun t => by simp
  refine ⟨N, hN1, h4 (List.replicate N (1 / N : ℝ)) [] hne (fun τ hτ => ?_) ?_ _ (fun t => ?_) ?_ (fun t => ?_)⟩
  · rw [List.eq_of_mem_replicate hτ]
    refine ⟨by positivity, ?_⟩
    have := (le_max_left _ _).trans_lt hN
    rw [div_lt_iff₀ hδ] at this
    rw [div_le_iff₀ hN0]
    linarith
  · rw [List.sum_replicate, nsmul_eq_mul]
    exact mul_one_div_cancel hN0.ne'
  · exact ⟨le_rfl, gridPoint_mono hstep (Nat.le_succ _)⟩
  · refine ⟨rfl, rfl, by simp, fun g hg => ?_⟩
    cases hg
    refine ⟨by simp [rowsOf], fun row hrow => ?_⟩
    obtain ⟨r, hr, rfl⟩ := List.mem_map.1 hrow
    rw [List.length_map]
    exact (rowsOf_shape _).2 r hr
  · show (List.map (fun row : List ℝ => row.map fun a => a ^ 2) _).getD t [] = _
    have ht : (t : Nat) < N := by simpa using t.2
    simp [rowsOf, List.getD_eq_getElem?_getD, ht]
    rfl

end Ex139

end

end Verif.Cost
