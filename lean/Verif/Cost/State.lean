import Verif.Cost.ClosestGrad

/-!
# C51: state fidelities

Kets of a space with at least two dimensions: `truncate_to_subspace` takes the rows of the computational states
(matrix.py:1304-1305; the ket branch that would rescale is unreachable, C26), so `rescale_propagated_state` has no
effect.  For a one dimensional space or a square state the truncation dispatches differently (C26); not modelled here.
-/

namespace Verif.Cost
open Verif Verif.Operator Verif.Solver Matrix

section
variable {n m : Type} [Fintype n] [DecidableEq n]

/-- `state.truncate_to_subspace(computational_states)` of a ket. -/
def selRows {b : Type} (cs : Option (List n)) (ψ : Matrix n b ℂ) : Matrix (CompIdx cs) b ℂ := ψ.submatrix (sel cs) id

/-- `state_fidelity`, cost_functions.py:405-464: target with `a` rows, state with `b` columns. -/
noncomputable def stateFid {a b : Nat} (cs : Option (List n)) (T : Matrix (Fin a) (CompIdx cs) ℂ) (ψ : Matrix n (Fin b) ℂ)
    (_rescale : Bool) : Except PyErr ℝ :=
  if h : a = 1 ∧ b = 1 then
    let sp := (T * selRows cs ψ) ⟨0, by omega⟩ ⟨0, by omega⟩
    .ok (sp.re ^ 2 + sp.im ^ 2)
  else .error .valueError

/-- `derivative_state_fidelity`, cost_functions.py:467-548, for a bra and kets.  An empty list of computational states is
false in Python: then the full propagators are multiplied with a target without entries. -/
noncomputable def derivStateFid (cs : Option (List n)) (T : Matrix (Fin 1) (CompIdx cs) ℂ) (fwd : List (Matrix n (Fin 1) ℂ))
    (dP : List (List (Matrix n n ℂ))) (rev : List (Matrix n n ℂ)) (_rescale : Bool) : Except PyErr (List (List ℝ)) :=
  if cs = some [] then .error .valueError
  else do
    let final ← last fwd
    let sp := (T * selRows cs final).map star
    gradTable fwd dP rev fun X => 2 * ((sp * (T * selRows cs X)) 0 0).re

/-- A target as handed to the constructor. -/
inductive Target (k : Type)
  | bra (T : Matrix (Fin 1) k ℂ)
  | ket (T : Matrix k (Fin 1) ℂ)

/-- `StateInfidelity.__init__`, cost_functions.py:1008-1011: a target with more rows than columns is replaced by its
adjoint.  (Space of two or more dimensions; for one dimension nothing would be changed.) -/
def asBra {k : Type} : Target k → Matrix (Fin 1) k ℂ
  | .bra T => T
  | .ket T => Tᴴ

/-- `StateInfidelity.costs`, cost_functions.py:1017-1026. -/
noncomputable def stateCosts {b : Nat} (cs : Option (List n)) (T : Matrix (Fin 1) (CompIdx cs) ℂ) (rescale : Bool)
    (fwd : List (Matrix n (Fin b) ℂ)) : Except PyErr ℝ := do
  let final ← last fwd
  let f ← stateFid cs T final rescale
  pure (1 - f)

/-- `StateInfidelity.grad`, cost_functions.py:1028-1038. -/
noncomputable def stateGrad (cs : Option (List n)) (T : Matrix (Fin 1) (CompIdx cs) ℂ) (rescale : Bool)
    (fwd : List (Matrix n (Fin 1) ℂ)) (dP : List (List (Matrix n n ℂ))) (rev : List (Matrix n n ℂ)) :
    Except PyErr (List (List ℝ)) := do
  let d ← derivStateFid cs T fwd dP rev rescale
  pure (negTable d)

/-- The target of `StateNoiseInfidelity.costs`, cost_functions.py:1151-1158. -/
noncomputable def noiseTarget (cs : Option (List n)) (T : Matrix (Fin 1) (CompIdx cs) ℂ) (nse : Bool)
    (fwd : List (Matrix n (Fin 1) ℂ)) : Except PyErr (Matrix (Fin 1) (CompIdx cs) ℂ) :=
  if nse then (last fwd).map fun final => (selRows cs final)ᴴ else .ok T

/-- `StateNoiseInfidelity.costs`, cost_functions.py:1146-1172. -/
noncomputable def stateNoiseCosts (cs : Option (List n)) (T : Matrix (Fin 1) (CompIdx cs) ℂ) (rescale nse : Bool)
    (fwd : List (Matrix n (Fin 1) ℂ)) (noise : List (List (Matrix n (Fin 1) ℂ))) : Except PyErr ℝ := do
  let target ← noiseTarget cs T nse fwd
  let l ← allOk (noise.map fun f => stateCosts cs target rescale f)
  pure (mean l)

/-! ## Values -/

/-- `|sp|² = re² + im²`. -/
theorem normSq_parts (z : ℂ) : z.re ^ 2 + z.im ^ 2 = ‖z‖ ^ 2 := by
  rw [← Complex.normSq_eq_norm_sq, Complex.normSq_apply]; ring

theorem stateFid_eq (cs : Option (List n)) (T : Matrix (Fin 1) (CompIdx cs) ℂ) (ψ : Matrix n (Fin 1) ℂ) (r : Bool) :
    stateFid cs T ψ r = .ok (‖∑ i, T 0 i * ψ (sel cs i) 0‖ ^ 2) := by
  unfold stateFid
  rw [dif_pos ⟨rfl, rfl⟩]
  simp only
  rw [normSq_parts, Matrix.mul_apply]
  rfl

/-- Distance of a vector from its projection on a normalised one. -/
theorem overlap {k : Type} [Fintype k] (T ψ : k → ℂ) (hT : ∑ i, ‖T i‖ ^ 2 = 1) :
    ∑ i, ‖ψ i - (∑ j, T j * ψ j) * star (T i)‖ ^ 2 = ∑ i, ‖ψ i‖ ^ 2 - ‖∑ j, T j * ψ j‖ ^ 2 := by
  set z := ∑ j, T j * ψ j with hz
  have hn : ∀ w : ℂ, ((‖w‖ ^ 2 : ℝ) : ℂ) = w * star w := by
    intro w
    rw [← Complex.normSq_eq_norm_sq]
    exact (Complex.mul_conj w).symm
  have hTc : ∑ i, T i * star (T i) = 1 := by
    have := congrArg (fun x : ℝ => (x : ℂ)) hT
    simp only [Complex.ofReal_sum, hn, Complex.ofReal_one] at this
    exact this
  have key : ((∑ i, ‖ψ i - z * star (T i)‖ ^ 2 : ℝ) : ℂ) = ((∑ i, ‖ψ i‖ ^ 2 - ‖z‖ ^ 2 : ℝ) : ℂ) := by
    rw [Complex.ofReal_sum, Complex.ofReal_sub, Complex.ofReal_sum, hn z]
    simp only [hn]
    have e : ∀ i, (ψ i - z * star (T i)) * star (ψ i - z * star (T i)) =
        ψ i * star (ψ i) - star z * (T i * ψ i) - z * star (T i * ψ i) + z * star z * (T i * star (T i)) := by
      intro i
      simp only [star_sub, star_mul', star_star]
      ring
    rw [Finset.sum_congr rfl fun i _ => e i, Finset.sum_add_distrib, Finset.sum_sub_distrib, Finset.sum_sub_distrib,
      ← Finset.mul_sum, ← Finset.mul_sum, ← Finset.mul_sum, hTc, ← hz, ← star_sum, ← hz]
    ring
  exact_mod_cast key

theorem sum_sel_le (cs : Option (List n)) (hcs : ∀ l, cs = some l → l.Nodup) (ψ : n → ℂ) :
    ∑ i, ‖ψ (sel cs i)‖ ^ 2 ≤ ∑ i, ‖ψ i‖ ^ 2 := by
  cases cs with
  | none => exact le_refl _
  | some l =>
    have hinj : Function.Injective l.get := List.nodup_iff_injective_get.mp (hcs l rfl)
    show ∑ i : Fin l.length, ‖ψ (l.get i)‖ ^ 2 ≤ _
    rw [← Finset.sum_image (f := fun i => ‖ψ i‖ ^ 2) (g := l.get) (s := Finset.univ) (fun a _ b _ h => hinj h)]
    exact Finset.sum_le_univ_sum_of_nonneg fun _ => sq_nonneg _

/-- **C51** For a normalised target and a normalised state the fidelity lies in `[0, 1]`, with or without (distinct)
computational states. -/
theorem c51_range (cs : Option (List n)) (hcs : ∀ l, cs = some l → l.Nodup) (T : Matrix (Fin 1) (CompIdx cs) ℂ)
    (ψ : Matrix n (Fin 1) ℂ) (r : Bool) (hT : ∑ i, ‖T 0 i‖ ^ 2 = 1) (hψ : ∑ i, ‖ψ i 0‖ ^ 2 = 1) :
    ∃ F, stateFid cs T ψ r = .ok F ∧ 0 ≤ F ∧ F ≤ 1 := by
  refine ⟨_, stateFid_eq cs T ψ r, sq_nonneg _, ?_⟩
  have h1 := overlap (fun i => T 0 i) (fun i => ψ (sel cs i) 0) hT
  have h2 : 0 ≤ ∑ i, ‖ψ (sel cs i) 0 - (∑ j, T 0 j * ψ (sel cs j) 0) * star (T 0 i)‖ ^ 2 :=
    Finset.sum_nonneg fun _ _ => sq_nonneg _
  have h3 := sum_sel_le cs hcs fun i => ψ i 0
  rw [hψ] at h3
  linarith

/-- **C51** It is one exactly if state and target agree up to a phase (on the computational states). -/
theorem c51_one_iff (cs : Option (List n)) (hcs : ∀ l, cs = some l → l.Nodup) (T : Matrix (Fin 1) (CompIdx cs) ℂ)
    (ψ : Matrix n (Fin 1) ℂ) (r : Bool) (hT : ∑ i, ‖T 0 i‖ ^ 2 = 1) (hψ : ∑ i, ‖ψ i 0‖ ^ 2 = 1) :
    stateFid cs T ψ r = .ok 1 ↔ ∃ z : ℂ, ‖z‖ = 1 ∧ ∀ i, ψ (sel cs i) 0 = z * star (T 0 i) := by
  have h1 := overlap (fun i => T 0 i) (fun i => ψ (sel cs i) 0) hT
  have h3 := sum_sel_le cs hcs fun i => ψ i 0
  rw [hψ] at h3
  rw [stateFid_eq]
  constructor
  · intro h
    simp only [Except.ok.injEq] at h
    have h2 : 0 ≤ ∑ i, ‖ψ (sel cs i) 0 - (∑ j, T 0 j * ψ (sel cs j) 0) * star (T 0 i)‖ ^ 2 :=
      Finset.sum_nonneg fun _ _ => sq_nonneg _
    have h4 : ∑ i, ‖ψ (sel cs i) 0 - (∑ j, T 0 j * ψ (sel cs j) 0) * star (T 0 i)‖ ^ 2 = 0 := by linarith
    refine ⟨∑ j, T 0 j * ψ (sel cs j) 0, ?_, fun i => ?_⟩
    · nlinarith [norm_nonneg (∑ j, T 0 j * ψ (sel cs j) 0)]
    · have := (Finset.sum_eq_zero_iff_of_nonneg fun _ _ => sq_nonneg _).mp h4 i (Finset.mem_univ _)
      have h5 : ‖ψ (sel cs i) 0 - (∑ j, T 0 j * ψ (sel cs j) 0) * star (T 0 i)‖ = 0 := by simpa using this
      exact sub_eq_zero.mp (norm_eq_zero.mp h5)
  · rintro ⟨z, hz, h⟩
    have hsum : ∑ j, T 0 j * ψ (sel cs j) 0 = z := by
      have e : ∀ j, T 0 j * ψ (sel cs j) 0 = z * ((‖T 0 j‖ ^ 2 : ℝ) : ℂ) := by
        intro j
        rw [h j, ← Complex.normSq_eq_norm_sq, ← Complex.mul_conj]
        show T 0 j * (z * star (T 0 j)) = z * (T 0 j * star (T 0 j))
        ring
      rw [Finset.sum_congr rfl fun j _ => e j, ← Finset.mul_sum, ← Complex.ofReal_sum, hT]
      simp
    rw [hsum, hz]
    norm_num

/-- **C51** Anything but a bra times a ket is rejected. -/
theorem c51_rejects {a b : Nat} (cs : Option (List n)) (T : Matrix (Fin a) (CompIdx cs) ℂ) (ψ : Matrix n (Fin b) ℂ) (r : Bool) :
    (∃ F, stateFid cs T ψ r = .ok F) ↔ a = 1 ∧ b = 1 := by
  unfold stateFid
  by_cases h : a = 1 ∧ b = 1
  · rw [dif_pos h]; exact ⟨fun _ => h, fun _ => ⟨_, rfl⟩⟩
  · rw [dif_neg h]; exact ⟨fun ⟨F, hF⟩ => by simp at hF, fun h' => absurd h' h⟩

/-- **C51** A target given as ket is used like its bra, and the fidelity with the target itself is one. -/
theorem c51_target_ket (cs : Option (List n)) (φ : Matrix (CompIdx cs) (Fin 1) ℂ) (ψ : Matrix n (Fin 1) ℂ) (r : Bool)
    (hφ : ∑ i, ‖φ i 0‖ ^ 2 = 1) (h : ∀ i, ψ (sel cs i) 0 = φ i 0) :
    stateFid cs (asBra (.ket φ)) ψ r = stateFid cs (asBra (.bra φᴴ)) ψ r ∧
      stateCosts cs (asBra (.ket φ)) r [ψ] = .ok 0 := by
  refine ⟨rfl, ?_⟩
  unfold stateCosts
  rw [last_ok (a := ψ) rfl]
  simp only [bind, Except.bind]
  rw [stateFid_eq]
  simp only [asBra, Matrix.conjTranspose_apply, h]
  have e : ∀ i, star (φ i 0) * φ i 0 = ((‖φ i 0‖ ^ 2 : ℝ) : ℂ) := by
    intro i
    rw [← Complex.normSq_eq_norm_sq, ← Complex.mul_conj, mul_comm]
    rfl
  rw [Finset.sum_congr rfl fun i _ => e i, ← Complex.ofReal_sum, hφ]
  simp [pure, Except.pure]

/-! ## Gradient -/

/-- **C51** `StateInfidelity.grad` is the derivative of its costs. -/
theorem c51_gradient (cs : Option (List n)) (hcs : cs ≠ some []) (T : Matrix (Fin 1) (CompIdx cs) ℂ) (r : Bool)
    (init : Matrix n (Fin 1) ℂ) (ps : List (Matrix n n ℂ)) (nc : Nat) (hnc : 0 < nc) (tr : Trace n (Fin 1))
    (htr : tr.Of init ps nc) :
    ∃ g, stateGrad cs T r tr.fwd tr.dP tr.rev = .ok g ∧ Rect g ps.length nc ∧
      ∀ t c P D fwds, Sweep init ps t P D fwds → tr.derivAt t c = some D →
        ∃ (G : ℝ) (cost : ℝ → ℝ), entry g t c = some G ∧ (∀ x, stateCosts cs T r (fwds x) = .ok (cost x)) ∧
          stateCosts cs T r tr.fwd = .ok (cost 0) ∧ HasDerivAt cost G 0 := by
  obtain ⟨E, hE⟩ : ∃ E, tr.fwd.getLast? = some E := by
    have : tr.fwd ≠ [] := by
      intro h0
      have := htr.forward.1
      rw [h0] at this
      simp at this
    exact ⟨_, List.getLast?_eq_some_getLast this⟩
  obtain ⟨g, h1, h2, h3⟩ := gradTable_entry htr hnc fun X =>
    2 * (((T * selRows cs E).map star * (T * selRows cs X)) 0 0).re
  refine ⟨negTable g, ?_, rect_neg h2, fun t c P D fwds hs hD => ?_⟩
  · unfold stateGrad derivStateFid
    rw [if_neg hcs, last_ok hE]
    simp only [bind, Except.bind]
    rw [h1]
    rfl
  · obtain ⟨R, F, e1, e2, e3, e4, e5⟩ := hs.final htr
    rw [hE] at e4
    simp only [Option.some.injEq] at e4
    have hval : ∀ ψ : Matrix n (Fin 1) ℂ, stateFid cs T ψ r = .ok (‖(T * selRows cs ψ) 0 0‖ ^ 2) := by
      intro ψ
      rw [stateFid_eq, Matrix.mul_apply]
      rfl
    refine ⟨_, fun x => 1 - ‖(T * selRows cs (R * P x * F)) 0 0‖ ^ 2, entry_neg (h3 t c R D F e1 hD e2), fun x => ?_, ?_, ?_⟩
    · unfold stateCosts
      rw [last_ok (e3 x)]
      simp only [bind, Except.bind]
      rw [hval]
      rfl
    · unfold stateCosts
      rw [last_ok hE, e4]
      simp only [bind, Except.bind]
      rw [hval]
      rfl
    · have h5 : MatDeriv (fun x => selRows cs (R * P x * F)) (selRows cs (R * D * F)) 0 := fun i j => e5 (sel cs i) j
      have h6 := hasDerivAt_norm_sq ((h5.const_mul T) 0 0)
      refine (h6.const_sub 1).congr_deriv ?_
      rw [e4]
      have : ∀ (A B : Matrix (Fin 1) (Fin 1) ℂ), (A.map star * B) 0 0 = star (A 0 0) * B 0 0 := by
        intro A B
        rw [Matrix.mul_apply, Fin.sum_univ_one]
        rfl
      rw [this]

/-- **C51** End to end with the Schroedinger solver and an initial ket. -/
theorem c51_schroedinger (p : SPar n (Fin 1)) (τ : List ℝ) (hv : p.Valid τ) (hst : Stable p.cfg)
    (hmeth : p.method = .frechet) (happ : p.approx = .none) (hE : p.L.ExpmOk) (hF : p.L.FrechetOk) (hne : p.xTimes τ ≠ [])
    (cs : Option (List n)) (hcs : cs ≠ some []) (T : Matrix (Fin 1) (CompIdx cs) ℂ) (r : Bool) (y u : Pulse)
    (hy : ampsOf p.cfg τ y = some u) :
    ∃ g, (gradOn (fun tr => stateGrad cs T r tr.fwd tr.dP tr.rev) p.cfg (fresh p.cfg τ y)).1 = .ok g ∧
      Rect g (p.xTimes τ).length p.ctrl.length ∧
      ∀ t c, t < (p.xTimes τ).length → c < p.ctrl.length →
        ∀ Y : ℝ → Pulse, (∀ x, ampsOf p.cfg τ (Y x) = some (bump u t c x)) →
          ∃ (G : ℝ) (cost : ℝ → ℝ), entry g t c = some G ∧
            (∀ x, (costOn (stateCosts cs T r) p.cfg (fresh p.cfg τ (Y x))).1 = .ok (cost x)) ∧ HasDerivAt cost G 0 := by
  have hnc : 0 < p.ctrl.length := List.length_pos_iff.mpr hv.1
  obtain ⟨g, h1, h2, h3⟩ := amplitude_gradient p τ hv hst hmeth happ hE hF hne (stateCosts cs T r)
    (fun tr => stateGrad cs T r tr.fwd tr.dP tr.rev) u _ (ready_fresh p τ y u hy)
    fun tr htr => c51_gradient cs hcs T r p.init _ _ hnc tr htr
  refine ⟨g, h1, h2, fun t c ht hc Y hY => ?_⟩
  obtain ⟨G, cost, k1, k2, -, k4⟩ := h3 t c ht hc (fun x => fresh p.cfg τ (Y x)) fun x => ready_fresh p τ _ _ (hY x)
  exact ⟨G, cost, k1, k2, k4⟩

/-! ## C80: the noise averaged state infidelity -/

/-- **C80** `StateNoiseInfidelity.costs` is the mean of the infidelities of the traces to the target, or to what the noiseless final
state leaves on the computational states. -/
theorem c80_value (cs : Option (List n)) (T : Matrix (Fin 1) (CompIdx cs) ℂ) (r nse : Bool) (fwd : List (Matrix n (Fin 1) ℂ))
    (E : Matrix n (Fin 1) ℂ) (hE : fwd.getLast? = some E) (noise : List (List (Matrix n (Fin 1) ℂ))) (hn : ∀ f ∈ noise, f ≠ []) :
    stateNoiseCosts cs T r nse fwd noise =
      .ok (mean (noise.map fun f => 1 - ‖∑ i, (if nse then star (E (sel cs i) 0) else T 0 i) * f.getLastD 0 (sel cs i) 0‖ ^ 2)) := by
  set T' : Matrix (Fin 1) (CompIdx cs) ℂ := if nse then (selRows cs E)ᴴ else T with hT'
  have ht : ∀ i, T' 0 i = if nse then star (E (sel cs i) 0) else T 0 i := by
    intro i
    rw [hT']
    cases nse <;> rfl
  simp only [← ht]
  unfold stateNoiseCosts
  have : noiseTarget cs T nse fwd = .ok T' := by
    unfold noiseTarget
    rw [hT']
    cases nse
    · rfl
    · simp only [if_true, last_ok hE]; rfl
  rw [this]
  simp only [bind, Except.bind]
  rw [allOk_map noise _ fun f => 1 - ‖∑ i, T' 0 i * f.getLastD 0 (sel cs i) 0‖ ^ 2]
  · rfl
  · intro f hf
    have : f.getLast? = some (f.getLastD 0) := by
      cases f with
      | nil => exact absurd rfl (hn _ hf)
      | cons a r => simp [List.getLast?_cons]
    unfold stateCosts
    rw [last_ok this]
    simp only [bind, Except.bind]
    rw [stateFid_eq]
    rfl

/-- **C80** It lies in `[0, 1]` for normalised states, also if the noiseless final state is not in the computational subspace. -/
theorem c80_range (cs : Option (List n)) (hcs : ∀ l, cs = some l → l.Nodup) (T : Matrix (Fin 1) (CompIdx cs) ℂ) (r nse : Bool)
    (fwd : List (Matrix n (Fin 1) ℂ)) (noise : List (List (Matrix n (Fin 1) ℂ))) (E : Matrix n (Fin 1) ℂ)
    (hE : fwd.getLast? = some E) (hT : nse = false → ∑ i, ‖T 0 i‖ ^ 2 = 1) (hEn : nse = true → ∑ i, ‖E i 0‖ ^ 2 = 1)
    (hn : ∀ f ∈ noise, ∃ ψ, f.getLast? = some ψ ∧ ∑ i, ‖ψ i 0‖ ^ 2 = 1) :
    ∃ c, stateNoiseCosts cs T r nse fwd noise = .ok c ∧ 0 ≤ c ∧ c ≤ 1 := by
  have hne : ∀ f ∈ noise, f ≠ [] := by
    rintro _ hf rfl
    obtain ⟨ψ, h1, -⟩ := hn _ hf
    simp at h1
  refine ⟨_, c80_value cs T r nse fwd E hE noise hne, ?_⟩
  have hrange : ∀ x ∈ noise.map fun f => 1 - ‖∑ i, (if nse then star (E (sel cs i) 0) else T 0 i) * f.getLastD 0 (sel cs i) 0‖ ^ 2,
      0 ≤ x ∧ x ≤ 1 := by
    intro x hx
    obtain ⟨f, hf, rfl⟩ := List.mem_map.mp hx
    obtain ⟨ψ, h1, h2⟩ := hn f hf
    have e : f.getLastD 0 = ψ := by
      cases f with
      | nil => simp at h1
      | cons a f => simpa [List.getLast?_cons] using h1
    rw [e]
    refine ⟨?_, sub_le_self _ (sq_nonneg _)⟩
    set t : CompIdx cs → ℂ := fun i => if nse then star (E (sel cs i) 0) else T 0 i with ht
    have h3 : ∑ i, ‖t i‖ ^ 2 ≤ 1 := by
      cases nse
      · exact (hT rfl).le
      · refine le_trans (le_of_eq ?_) ((sum_sel_le cs hcs fun i => E i 0).trans (hEn rfl).le)
        simp [ht]
    have h4 : ∑ i, ‖ψ (sel cs i) 0‖ ^ 2 ≤ 1 := (sum_sel_le cs hcs fun i => ψ i 0).trans h2.le
    have h5 : ‖∑ i, t i * ψ (sel cs i) 0‖ ≤ ∑ i, ‖t i‖ * ‖ψ (sel cs i) 0‖ :=
      (norm_sum_le _ _).trans (le_of_eq (Finset.sum_congr rfl fun i _ => norm_mul _ _))
    have h6 := Finset.sum_mul_sq_le_sq_mul_sq Finset.univ (fun i => ‖t i‖) fun i => ‖ψ (sel cs i) 0‖
    have h7 : (∑ i, ‖t i‖ ^ 2) * ∑ i, ‖ψ (sel cs i) 0‖ ^ 2 ≤ 1 :=
      mul_le_one₀ h3 (Finset.sum_nonneg fun _ _ => sq_nonneg _) h4
    have h8 := pow_le_pow_left₀ (norm_nonneg _) h5 2
    linarith
  generalize (noise.map fun f => 1 - ‖∑ i, (if nse then star (E (sel cs i) 0) else T 0 i) * f.getLastD 0 (sel cs i) 0‖ ^ 2) = l at hrange
  unfold mean
  refine ⟨div_nonneg (List.sum_nonneg fun x hx => (hrange x hx).1) (by positivity), ?_⟩
  refine div_le_one_of_le₀ ?_ (by positivity)
  simpa using List.sum_le_card_nsmul l 1 fun x hx => (hrange x hx).2

/-- **C80** It vanishes exactly if every trace ends in the target up to a phase, or in the noiseless final state if systematic errors are
neglected. The noiseless final state is in the computational subspace here, see `c80_violated_leakage`. -/
theorem c80_zero_partial (cs : Option (List n)) (hcs : ∀ l, cs = some l → l.Nodup) (T : Matrix (Fin 1) (CompIdx cs) ℂ) (r nse : Bool) (fwd : List (Matrix n (Fin 1) ℂ))
    (noise : List (List (Matrix n (Fin 1) ℂ))) (hne : noise ≠ []) (E : Matrix n (Fin 1) ℂ) (hE : fwd.getLast? = some E)
    (hT : nse = false → ∑ i, ‖T 0 i‖ ^ 2 = 1) (hEn : nse = true → ∑ i, ‖E (sel cs i) 0‖ ^ 2 = 1)
    (hn : ∀ f ∈ noise, ∃ ψ, f.getLast? = some ψ ∧ ∑ i, ‖ψ i 0‖ ^ 2 = 1) :
    ∃ c, stateNoiseCosts cs T r nse fwd noise = .ok c ∧ 0 ≤ c ∧ c ≤ 1 ∧
      (c = 0 ↔ ∀ f ∈ noise, ∀ ψ, f.getLast? = some ψ → ∃ z : ℂ, ‖z‖ = 1 ∧
        ∀ i, ψ (sel cs i) 0 = z * (if nse then E (sel cs i) 0 else star (T 0 i))) := by
  set T' : Matrix (Fin 1) (CompIdx cs) ℂ := if nse then (selRows cs E)ᴴ else T with hT'
  have hT'n : ∑ i, ‖T' 0 i‖ ^ 2 = 1 := by
    rw [hT']
    cases nse
    · exact hT rfl
    · simp only [if_true, Matrix.conjTranspose_apply, norm_star]; exact hEn rfl
  have hlen : (0 : ℝ) < noise.length := by exact_mod_cast List.length_pos_iff.mpr hne
  set fin : List (Matrix n (Fin 1) ℂ) → Matrix n (Fin 1) ℂ := fun f => f.getLastD 0 with hfin
  have hlast : ∀ f ∈ noise, f.getLast? = some (fin f) ∧ ∑ i, ‖fin f i 0‖ ^ 2 = 1 := by
    intro f hf
    obtain ⟨ψ, h1, h2⟩ := hn f hf
    have : fin f = ψ := by
      cases f with
      | nil => simp at h1
      | cons a f => simpa [hfin, List.getLast?_cons] using h1
    rw [this]; exact ⟨h1, h2⟩
  set inf : List (Matrix n (Fin 1) ℂ) → ℝ := fun f => 1 - ‖∑ i, T' 0 i * fin f (sel cs i) 0‖ ^ 2 with hinf
  have hcost : ∀ f ∈ noise, stateCosts cs T' r f = .ok (inf f) := by
    intro f hf
    unfold stateCosts
    rw [last_ok (hlast f hf).1]
    simp only [bind, Except.bind]
    rw [stateFid_eq]
    rfl
  have hrange : ∀ f ∈ noise, 0 ≤ inf f ∧ inf f ≤ 1 := by
    intro f hf
    obtain ⟨F, h1, h2, h3⟩ := c51_range cs hcs T' (fin f) r hT'n (hlast f hf).2
    rw [stateFid_eq] at h1
    have : F = ‖∑ i, T' 0 i * fin f (sel cs i) 0‖ ^ 2 := (Except.ok.inj h1).symm
    rw [hinf]
    simp only
    rw [← this]
    exact ⟨by linarith, by linarith⟩
  refine ⟨mean (noise.map inf), ?_, ?_, ?_, ?_⟩
  · unfold stateNoiseCosts
    have : noiseTarget cs T nse fwd = .ok T' := by
      unfold noiseTarget
      rw [hT']
      cases nse
      · rfl
      · simp only [if_true, last_ok hE]; rfl
    rw [this]
    simp only [bind, Except.bind]
    rw [allOk_map noise _ inf hcost]
    rfl
  · unfold mean
    refine div_nonneg (List.sum_nonneg fun x hx => ?_) (by positivity)
    obtain ⟨f, hf, rfl⟩ := List.mem_map.mp hx
    exact (hrange f hf).1
  · unfold mean
    rw [div_le_one (by rw [List.length_map]; exact hlen)]
    have := List.sum_le_card_nsmul (noise.map inf) 1 fun x hx => by
      obtain ⟨f, hf, rfl⟩ := List.mem_map.mp hx
      exact (hrange f hf).2
    simpa using this
  · have hiff : mean (noise.map inf) = 0 ↔ ∀ f ∈ noise, inf f = 0 := by
      unfold mean
      rw [div_eq_zero_iff, or_iff_left (by rw [List.length_map]; exact hlen.ne')]
      have hgen : ∀ L : List (List (Matrix n (Fin 1) ℂ)), (∀ f ∈ L, 0 ≤ inf f) → ((L.map inf).sum = 0 ↔ ∀ f ∈ L, inf f = 0) := by
        intro L
        induction L with
        | nil => simp
        | cons f L ih =>
          intro h
          have h1 := h f (by simp)
          have h2 : 0 ≤ (L.map inf).sum := List.sum_nonneg fun x hx => by
            obtain ⟨g, hg, rfl⟩ := List.mem_map.mp hx
            exact h g (by simp [hg])
          rw [List.map_cons, List.sum_cons]
          constructor
          · intro h3 g hg
            rcases List.mem_cons.mp hg with rfl | hg
            · linarith
            · exact (ih fun f hf => h f (by simp [hf])).mp (by linarith) g hg
          · intro h3
            rw [h3 f (by simp), (ih fun f hf => h f (by simp [hf])).mpr fun g hg => h3 g (by simp [hg]), add_zero]
      exact hgen noise fun f hf => (hrange f hf).1
    rw [hiff]
    have hone : ∀ f ∈ noise, (inf f = 0 ↔ ∃ z : ℂ, ‖z‖ = 1 ∧ ∀ i, fin f (sel cs i) 0 = z * star (T' 0 i)) := by
      intro f hf
      have := c51_one_iff cs hcs T' (fin f) r hT'n (hlast f hf).2
      rw [stateFid_eq] at this
      rw [← this]
      simp only [Except.ok.injEq]
      rw [hinf]
      simp only
      constructor
      · intro h; linarith
      · intro h; linarith
    have hstar : ∀ i, star (T' 0 i) = if nse then E (sel cs i) 0 else star (T 0 i) := by
      intro i
      rw [hT']
      cases nse
      · rfl
      · simp only [if_true, Matrix.conjTranspose_apply, star_star]; rfl
    constructor
    · intro h f hf ψ hψ
      rw [(hlast f hf).1] at hψ
      simp only [Option.some.injEq] at hψ
      subst hψ
      obtain ⟨z, h1, h2⟩ := (hone f hf).mp (h f hf)
      exact ⟨z, h1, fun i => by rw [h2, hstar]⟩
    · intro h f hf
      obtain ⟨z, h1, h2⟩ := h f hf _ (hlast f hf).1
      exact (hone f hf).mpr ⟨z, h1, fun i => by rw [h2, hstar]⟩

/-- **C80**, negation on a subspace: if systematic errors are neglected, the part of the noiseless final state outside of the computational
states is counted although there is no noise at all. -/
theorem c80_violated_leakage (cs : Option (List n)) (T : Matrix (Fin 1) (CompIdx cs) ℂ) (r : Bool) (fwd : List (Matrix n (Fin 1) ℂ))
    (E : Matrix n (Fin 1) ℂ) (hE : fwd.getLast? = some E) (k : Nat) :
    stateNoiseCosts cs T r true fwd (List.replicate (k + 1) fwd) = .ok (1 - (∑ i, ‖E (sel cs i) 0‖ ^ 2) ^ 2) := by
  have hne : fwd ≠ [] := by
    rintro rfl
    simp at hE
  have e : fwd.getLastD 0 = E := by
    cases fwd with
    | nil => simp at hE
    | cons a f => simpa [List.getLast?_cons] using hE
  rw [c80_value cs T r true fwd E hE _ fun f hf => by rw [List.eq_of_mem_replicate hf]; exact hne, List.map_replicate]
  unfold mean
  rw [List.sum_replicate, List.length_replicate, nsmul_eq_mul, mul_div_cancel_left₀ _ (by positivity), e]
  have : ∑ i, star (E (sel cs i) 0) * E (sel cs i) 0 = ((∑ i, ‖E (sel cs i) 0‖ ^ 2 : ℝ) : ℂ) := by
    push_cast
    exact Finset.sum_congr rfl fun i _ => Complex.conj_mul' _
  simp only [if_true]
  rw [this, Complex.norm_real, Real.norm_eq_abs, sq_abs]

end

/-! ## Examples -/

/-- Qubit state at angle 3/5, 4/5. -/
noncomputable def tiltedKet : Matrix (Fin 2) (Fin 1) ℂ := !![3 / 5; 4 / 5]
/-- Target bra for state 0. -/
def zeroBra : Matrix (Fin 1) (Fin 2) ℂ := !![1, 0]

theorem tiltedKet_norm : ∑ i, ‖tiltedKet i 0‖ ^ 2 = 1 := by
  have h1 : tiltedKet 0 0 = ((3 / 5 : ℝ) : ℂ) := by simp [tiltedKet]
  have h2 : tiltedKet 1 0 = ((4 / 5 : ℝ) : ℂ) := by simp [tiltedKet]
  rw [Fin.sum_univ_two, h1, h2, Complex.norm_real, Complex.norm_real]
  norm_num

theorem zeroBra_norm : ∑ i, ‖zeroBra 0 i‖ ^ 2 = 1 := by
  simp [zeroBra, Fin.sum_univ_two]

example : stateFid (n := Fin 2) none zeroBra tiltedKet false = .ok (9 / 25) := by
  refine (stateFid_eq (n := Fin 2) none zeroBra tiltedKet false).trans ?_
  congr 1
  show ‖∑ i : Fin 2, zeroBra 0 i * tiltedKet i 0‖ ^ 2 = _
  have : ∑ i : Fin 2, zeroBra 0 i * tiltedKet i 0 = ((3 / 5 : ℝ) : ℂ) := by
    simp [zeroBra, tiltedKet, Fin.sum_univ_two]
  rw [this, Complex.norm_real]
  norm_num

example : ∃ F, stateFid (some [(1 : Fin 2)]) (!![1] : Matrix (Fin 1) (Fin 1) ℂ) tiltedKet false = .ok F ∧ 0 ≤ F ∧ F ≤ 1 :=
  c51_range (some [(1 : Fin 2)]) (by simp) _ _ _ (by show ∑ i : Fin 1, _ = _; simp) tiltedKet_norm

example : ∃ c, stateNoiseCosts (n := Fin 2) none zeroBra false true [tiltedKet] [[tiltedKet], [Complex.I • tiltedKet]] = .ok c ∧
    c = 0 := by
  obtain ⟨c, h1, -, -, h4⟩ := c80_zero_partial (n := Fin 2) none (by simp) zeroBra false true [tiltedKet] [[tiltedKet], [Complex.I • tiltedKet]] (by simp) tiltedKet rfl
    (fun _ => zeroBra_norm) (fun _ => tiltedKet_norm) (by
      intro f hf
      simp only [List.mem_cons, List.not_mem_nil, or_false] at hf
      rcases hf with rfl | rfl
      · exact ⟨_, rfl, tiltedKet_norm⟩
      · refine ⟨_, rfl, ?_⟩
        rw [← tiltedKet_norm]
        simp)
  refine ⟨c, h1, h4.mpr fun f hf ψ hψ => ?_⟩
  simp only [List.mem_cons, List.not_mem_nil, or_false] at hf
  rcases hf with rfl | rfl
  · simp only [List.getLast?_singleton, Option.some.injEq] at hψ
    exact ⟨1, by simp, fun i => by simp [← hψ]⟩
  · simp only [List.getLast?_singleton, Option.some.injEq] at hψ
    exact ⟨Complex.I, by simp, fun i => by simp [← hψ]⟩

/-- Three traces without any noise, and an infidelity of more than one half. -/
example : ∃ c, stateNoiseCosts (some [(1 : Fin 2)]) (!![1] : Matrix (Fin 1) (Fin 1) ℂ) true true [tiltedKet]
    [[tiltedKet], [tiltedKet], [tiltedKet]] = .ok c ∧ c = 1 - (16 / 25) ^ 2 ∧ 0 ≤ c ∧ c ≤ 1 := by
  have h := c80_violated_leakage (some [(1 : Fin 2)]) (!![1] : Matrix (Fin 1) (Fin 1) ℂ) true [tiltedKet] tiltedKet rfl 2
  refine ⟨_, h, ?_⟩
  have : ∑ i : CompIdx (some [(1 : Fin 2)]), ‖tiltedKet (sel (some [(1 : Fin 2)]) i) 0‖ ^ 2 = 16 / 25 := by
    show ∑ i : Fin 1, ‖tiltedKet ([(1 : Fin 2)].get i) 0‖ ^ 2 = _
    have h2 : tiltedKet 1 0 = ((4 / 5 : ℝ) : ℂ) := by simp [tiltedKet]
    rw [Fin.sum_univ_one]
    show ‖tiltedKet 1 0‖ ^ 2 = _
    rw [h2, Complex.norm_real]
    norm_num
  rw [this]
  norm_num

/-- The mean of the infidelities of two traces to the target; the noiseless final state does not matter. -/
example : ∃ c, stateNoiseCosts (n := Fin 2) none zeroBra false false [zeroBraᴴ] [[tiltedKet], [zeroBraᴴ]] = .ok c ∧ 0 ≤ c ∧ c ≤ 1 :=
  c80_range (n := Fin 2) none (by simp) zeroBra false false [zeroBraᴴ] [[tiltedKet], [zeroBraᴴ]] zeroBraᴴ rfl
    (fun _ => zeroBra_norm) (by simp) (by
      intro f hf
      simp only [List.mem_cons, List.not_mem_nil, or_false] at hf
      rcases hf with rfl | rfl
      · exact ⟨_, rfl, tiltedKet_norm⟩
      · exact ⟨_, rfl, by simpa using zeroBra_norm⟩)

/-- `c51_gradient` applies to a rotated qubit starting in state 0. -/
noncomputable def ketTrace : Trace (Fin 2) (Fin 1) := ⟨[zeroBraᴴ, rot0 * zeroBraᴴ], [[rotD]], [1, rot0]⟩

example : ∃ g G, ∃ cost : ℝ → ℝ, stateGrad (n := Fin 2) none zeroBra false ketTrace.fwd ketTrace.dP ketTrace.rev = .ok g ∧
    entry g 0 0 = some G ∧ HasDerivAt cost G 0 := by
  have hOf : ketTrace.Of zeroBraᴴ [rot0] 1 := by
    refine ⟨⟨rfl, rfl, fun i hi => ?_⟩, rotTrace_of.reversed, rotTrace_of.shape⟩
    have hi' : i = 0 := by simpa using hi
    subst hi'
    exact ⟨_, rfl, by simp [ketTrace]⟩
  obtain ⟨g, h1, -, h3⟩ := c51_gradient (n := Fin 2) none (by simp) zeroBra false zeroBraᴴ [rot0] 1 (by norm_num) ketTrace hOf
  obtain ⟨G, cost, k1, -, -, k4⟩ := h3 0 0 rotP rotD (fun x => [zeroBraᴴ, rotP x * zeroBraᴴ])
    ⟨fun x => ⟨rfl, rfl, fun i hi => by
      have hi' : i = 0 := by simpa using hi
      subst hi'
      exact ⟨_, rfl, by simp⟩⟩, by simp [rotP_zero], rotP_deriv⟩ rfl
  exact ⟨g, G, cost, h1, k1, k4⟩

end Verif.Cost
