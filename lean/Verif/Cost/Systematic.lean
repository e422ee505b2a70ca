import Verif.Sim.Sequence
import Verif.Cost.State
import Verif.Cost.Leakage

/-!
# C126: noise infidelities with and without systematic errors

The options `target`, `neglect_systematic_errors` and `fidelity_measure` of `OperationNoiseInfidelity` (cost_functions.py:1320-1454),
`StateNoiseInfidelity` (cost_functions.py:1109-1176) and `OperationInfidelity` (cost_functions.py:1238-1262).
-/

namespace Verif.Cost
open Verif Verif.Operator Verif.Solver Matrix

/-! ## Model -/

/-- The argument `fidelity_measure`. -/
inductive Measure where
  | entanglement | other
  deriving DecidableEq

section
variable {n : Type} [Fintype n] [DecidableEq n]

/-- The attributes of an `OperationNoiseInfidelity` besides the solver. -/
structure OpNoise (cs : Option (List n)) where
  target : Option (Matrix (CompIdx cs) (CompIdx cs) ℂ)
  measure : Measure
  mcu : Bool
  neglect : Bool

/-- `OperationNoiseInfidelity.__init__`, cost_functions.py:1361-1385. -/
def opNoiseInit (cs : Option (List n)) (target : Option (Matrix (CompIdx cs) (CompIdx cs) ℂ)) (measure : Measure) (mcu neglect : Bool) :
    OpNoise cs :=
  ⟨target, measure, mcu, if target.isNone && !neglect then true else neglect⟩

/-- `_effective_target`, cost_functions.py:1396-1400; the methods of `None` which would be called later raise AttributeError. -/
noncomputable def OpNoise.effective {cs : Option (List n)} (o : OpNoise cs) (cl : Closest) (fwd : List (Matrix n n ℂ)) :
    Except PyErr (Matrix (CompIdx cs) (CompIdx cs) ℂ) :=
  if o.neglect then effTarget cl cs 0 o.mcu true fwd
  else match o.target with
    | none => .error .attributeError
    | some T => effTarget cl cs T o.mcu false fwd

/-- `OperationNoiseInfidelity.costs`, cost_functions.py:1402-1422. -/
noncomputable def OpNoise.costs {cs : Option (List n)} (o : OpNoise cs) (cl : Closest) (fwd : List (Matrix n n ℂ))
    (noise : List (List (Matrix n n ℂ))) : Except PyErr ℝ :=
  match o.effective cl fwd with
  | .error e => .error e
  | .ok T => match o.measure with
    | .entanglement => noiseCosts cl cs T o.mcu false fwd noise
    | .other => .error .notImplementedError

/-- `OperationNoiseInfidelity.grad`, cost_functions.py:1424-1454: the measure is not looked at. -/
noncomputable def OpNoise.grad {cs : Option (List n)} (o : OpNoise cs) (cl : Closest) (nt nc : Nat) (clean : Trace n n)
    (noise : List (Trace n n)) : Except PyErr (List (List ℝ)) :=
  match o.effective cl clean.fwd with
  | .error e => .error e
  | .ok T => noiseGrad cl cs T o.mcu o.neglect nt nc clean noise

/-- `OperationInfidelity.__init__`, cost_functions.py:1238-1262: the label and the measure. -/
def opInit (measure : Measure) (label : Option (List String)) : Except PyErr (List String) :=
  let l := match label with
    | some l => l
    | none => if measure = .entanglement then ["Entanglement Infidelity"] else ["Operator Infidelity"]
  match measure with
  | .entanglement => .ok l
  | .other => .error .notImplementedError

/-- `StateNoiseInfidelity.__init__`, cost_functions.py:1126-1144: the shape of the target is read before it is compared with `None`. -/
def stateNoiseInit {k : Type} (target : Option (Target k)) (neglect : Bool) : Except PyErr (Matrix (Fin 1) k ℂ × Bool) :=
  match target with
  | none => .error .attributeError
  | some t => .ok (asBra t, neglect)

end

/-! ## Lemmas -/

theorem mean_map {α : Type} (l : List α) (f : α → ℝ) : mean (l.map f) = (∑ i : Fin l.length, f l[i]) / l.length := by
  unfold mean
  rw [List.length_map, ← Fin.sum_univ_fun_getElem]
  rfl

/-- Triangle inequality for the root of a mean of squares. -/
theorem sqrt_mean_le {α : Type} (l : List α) (x y z : α → ℝ) (hx : ∀ a ∈ l, 0 ≤ x a) (hy : ∀ a ∈ l, 0 ≤ y a) (hz : ∀ a ∈ l, 0 ≤ z a)
    (h : ∀ a ∈ l, √(x a) ≤ √(y a) + √(z a)) : √(mean (l.map x)) ≤ √(mean (l.map y)) + √(mean (l.map z)) := by
  rcases l.eq_nil_or_concat with rfl | ⟨l', a, e⟩
  · simp [mean]
  have hN : (0 : ℝ) < l.length := by
    rw [e]; simp; positivity
  clear e
  rw [mean_map, mean_map, mean_map]
  have hm : ∀ i : Fin l.length, l[i] ∈ l := fun i => List.getElem_mem _
  set Y := ∑ i : Fin l.length, y l[i] with hYd
  set Z := ∑ i : Fin l.length, z l[i] with hZd
  have hY : 0 ≤ Y := Finset.sum_nonneg fun i _ => hy _ (hm i)
  have hZ : 0 ≤ Z := Finset.sum_nonneg fun i _ => hz _ (hm i)
  have h1 : ∑ i : Fin l.length, x l[i] ≤ ∑ i : Fin l.length, (y l[i] + 2 * (√(y l[i]) * √(z l[i])) + z l[i]) := by
    refine Finset.sum_le_sum fun i _ => ?_
    have := pow_le_pow_left₀ (Real.sqrt_nonneg _) (h _ (hm i)) 2
    rw [Real.sq_sqrt (hx _ (hm i)), add_sq, Real.sq_sqrt (hy _ (hm i)), Real.sq_sqrt (hz _ (hm i))] at this
    linarith
  have h2 : (∑ i : Fin l.length, √(y l[i]) * √(z l[i])) ≤ √Y * √Z := by
    rw [← Real.sqrt_mul hY]
    refine Real.le_sqrt_of_sq_le ((Finset.sum_mul_sq_le_sq_mul_sq _ _ _).trans (le_of_eq ?_))
    congr 1
    · exact Finset.sum_congr rfl fun i _ => Real.sq_sqrt (hy _ (hm i))
    · exact Finset.sum_congr rfl fun i _ => Real.sq_sqrt (hz _ (hm i))
  rw [Finset.sum_add_distrib, Finset.sum_add_distrib, ← Finset.mul_sum, ← hYd, ← hZd] at h1
  rw [Real.sqrt_div hY, Real.sqrt_div hZ, ← add_div]
  refine Real.sqrt_le_iff.mpr ⟨by positivity, ?_⟩
  rw [div_pow, Real.sq_sqrt hN.le, div_le_div_iff_of_pos_right hN, add_sq, Real.sq_sqrt hY, Real.sq_sqrt hZ]
  linarith

theorem mean_const {α : Type} (l : List α) (hl : l ≠ []) (c : ℝ) : mean (l.map fun _ => c) = c := by
  have : (0 : ℝ) < l.length := by exact_mod_cast List.length_pos_iff.mpr hl
  unfold mean
  rw [List.length_map, List.map_const', List.sum_replicate, nsmul_eq_mul]
  field_simp

section
variable {n : Type} [Fintype n] [DecidableEq n]

omit [DecidableEq n] in
theorem noiseCosts_value (cl : Closest) (cs : Option (List n)) (T : Matrix (CompIdx cs) (CompIdx cs) ℂ) (mcu : Bool)
    (fwd : List (Matrix n n ℂ)) (noise : List (List (Matrix n n ℂ))) (h : ∀ f ∈ noise, f ≠ []) :
    noiseCosts cl cs T mcu false fwd noise = .ok (mean (noise.map fun f => 1 - entFid cl cs T (f.getLastD 0) mcu)) := by
  unfold noiseCosts effTarget
  simp only [Bool.false_eq_true, if_false, bind, Except.bind, pure, Except.pure]
  rw [allOk_map noise _ (fun f => 1 - entFid cl cs T (f.getLastD 0) mcu)]
  intro f hf
  cases f with
  | nil => exact absurd rfl (h _ hf)
  | cons U f => rw [last_ok (a := (U :: f).getLastD 0) (by simp [List.getLast?_cons])]

omit [Fintype n] [DecidableEq n] in
theorem last_value {f : List (Matrix n n ℂ)} {U : Matrix n n ℂ} (h : f.getLast? = some U) : f ≠ [] ∧ f.getLastD 0 = U := by
  cases f with
  | nil => simp at h
  | cons a f =>
    refine ⟨by simp, ?_⟩
    rw [List.getLastD_eq_getLast?, h]
    rfl

/-- The costs of an object that was constructed with a target, or which neglects systematic errors. -/
theorem costs_value (cl : Closest) (cs : Option (List n)) (target : Option (Matrix (CompIdx cs) (CompIdx cs) ℂ)) (mcu neglect : Bool)
    (fwd : List (Matrix n n ℂ)) (U : Matrix n n ℂ) (hU : fwd.getLast? = some U) (noise : List (List (Matrix n n ℂ)))
    (h : ∀ f ∈ noise, f ≠ []) :
    (neglect = true ∨ target = none → (opNoiseInit cs target .entanglement mcu neglect).costs cl fwd noise =
      .ok (mean (noise.map fun f => 1 - entFid cl cs (truncTo cl cs mcu U) (f.getLastD 0) mcu))) ∧
    (∀ T, neglect = false → target = some T → (opNoiseInit cs target .entanglement mcu neglect).costs cl fwd noise =
      .ok (mean (noise.map fun f => 1 - entFid cl cs T (f.getLastD 0) mcu))) := by
  constructor
  · intro hn
    have e : opNoiseInit cs target .entanglement mcu neglect = ⟨target, .entanglement, mcu, true⟩ := by
      unfold opNoiseInit
      rcases hn with rfl | rfl
      · cases target <;> rfl
      · cases neglect <;> rfl
    rw [e]
    unfold OpNoise.costs OpNoise.effective effTarget
    simp only [if_true, last_ok hU, bind, Except.bind, pure, Except.pure]
    exact noiseCosts_value cl cs _ mcu fwd noise h
  · rintro T rfl rfl
    exact noiseCosts_value cl cs _ mcu fwd noise h

/-- Triangle inequality of the infidelities of unitary operations. -/
theorem infidelity_triangle [Nonempty n] (cl : Closest) (mcu : Bool) {A B C : Matrix n n ℂ} (hA : A ∈ Matrix.unitaryGroup n ℂ)
    (hB : B ∈ Matrix.unitaryGroup n ℂ) (hC : C ∈ Matrix.unitaryGroup n ℂ) :
    √(1 - entFid cl none A C mcu) ≤ √(1 - entFid cl none A B mcu) + √(1 - entFid cl none B C mcu) ∧
      0 ≤ 1 - entFid cl none A C mcu ∧ entFid cl none A C mcu = entFid cl none C A mcu := by
  have h0 : ∀ X Y : Matrix n n ℂ, entFid cl none X Y mcu = ‖(Xᴴ * Y).trace‖ ^ 2 / dim (n := n) none / dim (n := n) none := by
    intro X Y
    cases mcu <;> rfl
  have hd : (0 : ℝ) < Fintype.card n := by exact_mod_cast Fintype.card_pos
  have hn : ∀ {V : Matrix n n ℂ}, V ∈ Matrix.unitaryGroup n ℂ → ‖Sim.vec V‖ ^ 2 = Fintype.card n := by
    intro V hV
    have h := @inner_self_eq_norm_sq_to_K ℂ _ _ _ _ (Sim.vec V)
    rw [Sim.vec_inner, show Vᴴ * V = 1 from Matrix.mem_unitaryGroup_iff'.mp hV, Matrix.trace_one] at h
    have : ((‖Sim.vec V‖ ^ 2 : ℝ) : ℂ) = ((Fintype.card n : ℝ) : ℂ) := by
      rw [Complex.ofReal_pow]
      refine h.symm.trans ?_
      simp
    exact_mod_cast this
  have h1 := Sim.sin_triangle hd (hn hC) (hn hB) (hn hA)
  have h2 := Sim.overlap_range hd (hn hC) (hn hA)
  rw [Sim.vec_inner, Sim.vec_inner, Sim.vec_inner] at h1
  rw [Sim.vec_inner] at h2
  refine ⟨?_, ?_, ?_⟩
  · rw [h0, h0, h0, add_comm]
    exact h1
  · rw [h0]
    exact h2.1
  · rw [h0, h0]
    congr 3
    rw [← norm_star, ← Matrix.trace_conjTranspose, Matrix.conjTranspose_mul, Matrix.conjTranspose_conjTranspose]

/-! ## The property -/

/-- **C126** On the whole space the systematic error and the noise add up at most: the roots of the noise infidelity to the target, of the
noise infidelity without systematic errors, and of the infidelity of the noiseless evolution satisfy the triangle inequalities. -/
theorem c126_triangle [Nonempty n] (cl : Closest) (mcu : Bool) (T : Matrix n n ℂ) (hT : T ∈ Matrix.unitaryGroup n ℂ)
    (fwd : List (Matrix n n ℂ)) (U : Matrix n n ℂ) (hU : fwd.getLast? = some U) (hUu : U ∈ Matrix.unitaryGroup n ℂ)
    (noise : List (List (Matrix n n ℂ))) (hne : noise ≠ [])
    (hN : ∀ f ∈ noise, ∃ V, f.getLast? = some V ∧ V ∈ Matrix.unitaryGroup n ℂ) :
    ∃ c₀ c cT : ℝ, opCosts cl none T mcu fwd = .ok c₀ ∧
      (opNoiseInit (n := n) none (some T) .entanglement mcu true).costs cl fwd noise = .ok c ∧
      (opNoiseInit (n := n) none (some T) .entanglement mcu false).costs cl fwd noise = .ok cT ∧
      √cT ≤ √c₀ + √c ∧ √c ≤ √c₀ + √cT ∧ √c₀ ≤ √c + √cT := by
  have hne' : ∀ f ∈ noise, f ≠ [] := fun f hf => by
    obtain ⟨V, hV, -⟩ := hN f hf
    exact (last_value hV).1
  have hV : ∀ f ∈ noise, f.getLastD 0 ∈ Matrix.unitaryGroup n ℂ := fun f hf => by
    obtain ⟨V, hV, hVu⟩ := hN f hf
    rw [(last_value hV).2]; exact hVu
  obtain ⟨e1, -⟩ := costs_value cl none (some T) mcu true fwd U hU noise hne'
  obtain ⟨-, e2⟩ := costs_value cl none (some T) mcu false fwd U hU noise hne'
  have hU' : truncTo cl (none : Option (List n)) mcu U = U := by cases mcu <;> rfl
  refine ⟨1 - entFid cl none T U mcu, _, _, ?_, e1 (Or.inl rfl), e2 T rfl rfl, ?_, ?_, ?_⟩
  · unfold opCosts
    rw [last_ok hU]
    rfl
  all_goals rw [hU']
  all_goals
    have h0 : 0 ≤ 1 - entFid cl none T U mcu := (infidelity_triangle cl mcu hT hT hUu).2.1
    have h1 : ∀ f ∈ noise, 0 ≤ 1 - entFid cl none T (f.getLastD 0) mcu := fun f hf => (infidelity_triangle cl mcu hT hT (hV f hf)).2.1
    have h2 : ∀ f ∈ noise, 0 ≤ 1 - entFid cl none U (f.getLastD 0) mcu := fun f hf => (infidelity_triangle cl mcu hUu hUu (hV f hf)).2.1
    rw [← mean_const noise hne (1 - entFid cl none T U mcu)]
  · exact sqrt_mean_le noise _ _ _ h1 (fun _ _ => h0) h2 fun f hf => (infidelity_triangle cl mcu hT hUu (hV f hf)).1
  · refine sqrt_mean_le noise _ _ _ h2 (fun _ _ => h0) h1 fun f hf => ?_
    rw [(infidelity_triangle cl mcu hT hT hUu).2.2]
    exact (infidelity_triangle cl mcu hUu hT (hV f hf)).1
  · refine sqrt_mean_le noise _ _ _ (fun _ _ => h0) h2 h1 fun f hf => ?_
    rw [(infidelity_triangle cl mcu hUu hUu (hV f hf)).2.2, add_comm]
    exact (infidelity_triangle cl mcu hT (hV f hf) hUu).1

/-- **C126** Without noise: on the whole space, and on a subspace if the truncated evolution is mapped to a unitary, nothing is left when
systematic errors are neglected; relative to a target the infidelity of the noiseless evolution is left. -/
theorem c126_quiet (cl : Closest) (cs : Option (List n)) [Nonempty (CompIdx cs)] (mcu : Bool)
    (target : Option (Matrix (CompIdx cs) (CompIdx cs) ℂ)) (fwd : List (Matrix n n ℂ)) (U : Matrix n n ℂ)
    (hU : fwd.getLast? = some U) (noise : List (List (Matrix n n ℂ))) (hne : noise ≠ []) (hN : ∀ f ∈ noise, f.getLast? = some U) :
    (truncTo cl cs mcu U ∈ Matrix.unitaryGroup (CompIdx cs) ℂ →
      (opNoiseInit cs target .entanglement mcu true).costs cl fwd noise = .ok 0) ∧
    (∀ T, target = some T →
      (opNoiseInit cs target .entanglement mcu false).costs cl fwd noise = opCosts cl cs T mcu fwd) := by
  have hne' : ∀ f ∈ noise, f ≠ [] := fun f hf => (last_value (hN f hf)).1
  have hd : (Fintype.card (CompIdx cs) : ℝ) ≠ 0 := by exact_mod_cast Fintype.card_ne_zero
  have hm : ∀ X : Matrix (CompIdx cs) (CompIdx cs) ℂ, (noise.map fun f => 1 - entFid cl cs X (f.getLastD 0) mcu) =
      noise.map fun _ => 1 - entFid cl cs X U mcu := by
    intro X
    refine List.map_congr_left fun f hf => ?_
    rw [(last_value (hN f hf)).2]
  constructor
  · intro hu
    rw [(costs_value cl cs target mcu true fwd U hU noise hne').1 (Or.inl rfl), hm, mean_const noise hne]
    congr 1
    unfold entFid
    rw [show (truncTo cl cs mcu U)ᴴ * truncTo cl cs mcu U = 1 from Matrix.mem_unitaryGroup_iff'.mp hu, Matrix.trace_one]
    simp only [Complex.norm_natCast, dim]
    field_simp
    simp
  · rintro T rfl
    rw [(costs_value cl cs (some T) mcu false fwd U hU noise hne').2 T rfl rfl, hm, mean_const noise hne]
    unfold opCosts
    rw [last_ok hU]
    rfl

/-- **C126** (violated): on a subspace, without the mapping to a unitary, leakage of the noiseless evolution remains although systematic
errors are neglected: without noise the result is `1 - (1 - L)²` with the leakage `L` reported by `LeakageError`. -/
theorem c126_violated_leakage (cl : Closest) (l : List n) (hl : l ≠ []) (hd : l.Nodup)
    (target : Option (Matrix (CompIdx (some l)) (CompIdx (some l)) ℂ)) (fwd : List (Matrix n n ℂ)) (U : Matrix n n ℂ)
    (hU : fwd.getLast? = some U) (hUu : U ∈ Matrix.unitaryGroup n ℂ) (noise : List (List (Matrix n n ℂ))) (hne : noise ≠ [])
    (hN : ∀ f ∈ noise, f.getLast? = some U) :
    ∃ L : ℝ, leakCosts l fwd = .ok L ∧
      (opNoiseInit (some l) target .entanglement false true).costs cl fwd noise = .ok (1 - (1 - L) ^ 2) := by
  have hne' : ∀ f ∈ noise, f ≠ [] := fun f hf => (last_value (hN f hf)).1
  have hm : ∀ X : Matrix (CompIdx (some l)) (CompIdx (some l)) ℂ, (noise.map fun f => 1 - entFid cl (some l) X (f.getLastD 0) false) =
      noise.map fun _ => 1 - entFid cl (some l) X U false := by
    intro X
    refine List.map_congr_left fun f hf => ?_
    rw [(last_value (hN f hf)).2]
  rw [(costs_value cl (some l) target false true fwd U hU noise hne').1 (Or.inl rfl), hm, mean_const noise hne]
  obtain ⟨c, h1, h2, h3, h4⟩ := c49_range l hd hl fwd U hU hUu
  refine ⟨c, h1, ?_⟩
  have hln : (0 : ℝ) < l.length := by exact_mod_cast List.length_pos_iff.mpr hl
  set V := U.submatrix l.get l.get with hV
  have h5 : (Vᴴ * V).trace = ((Vᴴ * V).trace.re : ℂ) := by
    refine Complex.ext rfl ?_
    have : star (Vᴴ * V).trace = (Vᴴ * V).trace := by
      rw [← Matrix.trace_conjTranspose, Matrix.conjTranspose_mul, Matrix.conjTranspose_conjTranspose]
    have := congrArg Complex.im this
    simp only [Complex.star_def, Complex.conj_im] at this
    simp only [Complex.ofReal_im]
    linarith
  show Except.ok (1 - ‖(Vᴴ * V).trace‖ ^ 2 / (Fintype.card (Fin l.length) : ℝ) / (Fintype.card (Fin l.length) : ℝ)) = _
  rw [h5, Complex.norm_real, Real.norm_eq_abs, sq_abs, h4, Fintype.card_fin]
  congr 1
  field_simp
  ring

/-- **C126** Without a target, or with the default `neglect_systematic_errors=True`, costs and gradient are those of any other target
with systematic errors neglected; in particular they do not depend on the target. -/
theorem c126_no_target (cl : Closest) (cs : Option (List n)) (T : Matrix (CompIdx cs) (CompIdx cs) ℂ) (measure : Measure)
    (mcu neglect : Bool) (fwd : List (Matrix n n ℂ)) (noise : List (List (Matrix n n ℂ))) (nt nc : Nat) (clean : Trace n n)
    (traces : List (Trace n n)) :
    (opNoiseInit cs none measure mcu neglect).costs cl fwd noise = (opNoiseInit cs (some T) measure mcu true).costs cl fwd noise ∧
    (opNoiseInit cs none measure mcu neglect).grad cl nt nc clean traces =
      (opNoiseInit cs (some T) measure mcu true).grad cl nt nc clean traces := by
  cases neglect <;> exact ⟨rfl, rfl⟩

/-- **C126** (violated): `StateNoiseInfidelity` cannot be created without a target, although systematic errors are neglected. -/
theorem c126_violated_state {k : Type} (neglect : Bool) : stateNoiseInit (none : Option (Target k)) neglect = .error .attributeError := rfl

/-- **C126** Other measures than 'entanglement' are rejected by the constructor of `OperationInfidelity` and by `costs` of
`OperationNoiseInfidelity`. -/
theorem c126_measure (cl : Closest) (cs : Option (List n)) (label : Option (List String))
    (target : Option (Matrix (CompIdx cs) (CompIdx cs) ℂ)) (mcu neglect : Bool) (fwd : List (Matrix n n ℂ)) (hf : fwd ≠ [])
    (noise : List (List (Matrix n n ℂ))) :
    opInit .other label = .error .notImplementedError ∧
    (opNoiseInit cs target .other mcu neglect).costs cl fwd noise = .error .notImplementedError := by
  refine ⟨rfl, ?_⟩
  obtain ⟨U, hU⟩ : ∃ U, fwd.getLast? = some U := ⟨_, List.getLast?_eq_some_getLast hf⟩
  unfold OpNoise.costs OpNoise.effective effTarget opNoiseInit
  cases target <;> cases neglect <;> simp [last_ok hU, bind, Except.bind, pure, Except.pure]

/-- **C126** (violated): `OperationNoiseInfidelity.grad` does not look at the measure: it returns a gradient, that of the entanglement
infidelity, for measures which `costs` rejects. -/
theorem c126_violated_measure (cl : Closest) (cs : Option (List n)) (hcs : cs ≠ some [])
    (target : Option (Matrix (CompIdx cs) (CompIdx cs) ℂ)) (mcu neglect : Bool) (hm : mcu = false ∨ cs = none) (init : Matrix n n ℂ)
    (nt nc : Nat) (hnc : 0 < nc) (clean : Trace n n) (psC : List (Matrix n n ℂ)) (hC : clean.Of init psC nc) (hCl : psC.length = nt)
    (traces : List (Trace n n)) (psN : List (List (Matrix n n ℂ))) (hlen : psN.length = traces.length)
    (hN : ∀ k (hk : k < traces.length) (ps : List (Matrix n n ℂ)), psN[k]? = some ps → traces[k].Of init ps nc ∧ ps.length = nt) :
    (opNoiseInit cs target .other mcu neglect).costs cl clean.fwd (traces.map (·.fwd)) = .error .notImplementedError ∧
    ∃ g, (opNoiseInit cs target .other mcu neglect).grad cl nt nc clean traces = .ok g ∧ Rect g nt nc ∧
      (opNoiseInit cs target .entanglement mcu neglect).grad cl nt nc clean traces = .ok g := by
  have hf : clean.fwd ≠ [] := by
    intro h
    have := hC.forward.1
    rw [h] at this
    simp at this
  refine ⟨(c126_measure cl cs none target mcu neglect clean.fwd hf _).2, ?_⟩
  obtain ⟨U, hU⟩ : ∃ U, clean.fwd.getLast? = some U := ⟨_, List.getLast?_eq_some_getLast hf⟩
  obtain ⟨T, hT⟩ : ∃ T, (opNoiseInit cs target .other mcu neglect).effective cl clean.fwd = .ok T := by
    unfold OpNoise.effective effTarget opNoiseInit
    cases target <;> cases neglect <;> simp [last_ok hU, bind, Except.bind, pure, Except.pure]
  obtain ⟨g, h1, h2, -⟩ := c48_gradient_partial cl cs hcs mcu (opNoiseInit cs target .other mcu neglect).neglect hm T init nt nc hnc clean
    psC hC hCl traces psN hN hlen
  have h3 : (opNoiseInit cs target .other mcu neglect).grad cl nt nc clean traces = .ok g := by
    unfold OpNoise.grad
    rw [hT]
    exact h1
  exact ⟨g, h3, h2, h3⟩

/-! ## Examples -/

namespace Ex126

def X : Matrix (Fin 2) (Fin 2) ℂ := !![0, 1; 1, 0]
def Z : Matrix (Fin 2) (Fin 2) ℂ := !![1, 0; 0, -1]

theorem X_unitary : X ∈ Matrix.unitaryGroup (Fin 2) ℂ := by
  rw [Matrix.mem_unitaryGroup_iff]
  ext i j
  fin_cases i <;> fin_cases j <;> simp [X, Matrix.mul_apply]

theorem Z_unitary : Z ∈ Matrix.unitaryGroup (Fin 2) ℂ := by
  rw [Matrix.mem_unitaryGroup_iff]
  ext i j
  fin_cases i <;> fin_cases j <;> simp [Z, Matrix.mul_apply]

/-- Meant to be `X`, but `Z` without noise; two traces. -/
example (cl : Closest) : ∃ c₀ c cT : ℝ, opCosts cl none (X : Matrix (Fin 2) (Fin 2) ℂ) false [1, Z] = .ok c₀ ∧
    (opNoiseInit (n := Fin 2) none (some X) .entanglement false true).costs cl [1, Z] [[1, Z], [1, X]] = .ok c ∧
    (opNoiseInit (n := Fin 2) none (some X) .entanglement false false).costs cl [1, Z] [[1, Z], [1, X]] = .ok cT ∧ √cT ≤ √c₀ + √c := by
  obtain ⟨c₀, c, cT, h1, h2, h3, h4, -⟩ := c126_triangle cl false X X_unitary [1, Z] Z rfl Z_unitary [[1, Z], [1, X]] (by simp)
    (by simp [X_unitary, Z_unitary])
  exact ⟨c₀, c, cT, h1, h2, h3, h4⟩

example (cl : Closest) : (opNoiseInit (n := Fin 2) none none .entanglement false false).costs cl [1, Z] [[1, Z], [Z]] = .ok 0 := by
  haveI : Nonempty (CompIdx (none : Option (List (Fin 2)))) := ⟨(0 : Fin 2)⟩
  rw [(c126_no_target cl none X .entanglement false false [1, Z] [[1, Z], [Z]] 0 0 ⟨[], [], []⟩ []).1]
  exact (c126_quiet cl none false (some X) [1, Z] Z rfl [[1, Z], [Z]] (by simp) (by simp)).1 Z_unitary

/-- Everything leaks from the first level: the result is one although there is no noise. -/
example (cl : Closest) (target : Option (Matrix (Fin 1) (Fin 1) ℂ)) :
    (opNoiseInit (n := Fin 2) (some [0]) target .entanglement false true).costs cl [1, X] [[1, X]] = .ok 1 := by
  obtain ⟨L, h1, h2⟩ := c126_violated_leakage cl [(0 : Fin 2)] (by simp) (by simp) target [1, X] X rfl X_unitary [[1, X]] (by simp) (by simp)
  rw [h2]
  have h3 : leakCosts [(0 : Fin 2)] [1, X] = .ok 1 := by
    unfold leakCosts last
    simp [X, Matrix.trace, Matrix.mul_apply, bind, Except.bind, pure, Except.pure]
  rw [h3] at h1
  rw [← Except.ok.inj h1]
  norm_num

example (cl : Closest) (target : Option (Matrix (Fin 2) (Fin 2) ℂ)) (neglect : Bool) :
    ∃ g, (opNoiseInit (n := Fin 2) none target .other false neglect).grad cl 1 1 ⟨[1, X], [[Z]], [1, X]⟩ [⟨[1, X], [[Z]], [1, X]⟩] = .ok g := by
  have h : (⟨[1, X], [[Z]], [1, X]⟩ : Trace (Fin 2) (Fin 2)).Of 1 [X] 1 := by
    refine ⟨⟨rfl, rfl, fun i hi => ?_⟩, ⟨rfl, rfl, fun i hi => ?_⟩, ?_⟩
    · obtain rfl : i = 0 := by simpa using hi
      exact ⟨1, rfl, by simp⟩
    · obtain rfl : i = 0 := by simpa using hi
      exact ⟨1, rfl, by simp⟩
    · exact ⟨rfl, by simp⟩
  obtain ⟨-, g, h1, -⟩ := c126_violated_measure cl none (by simp) target false neglect (Or.inl rfl) 1 1 1 (by simp) _ [X] h rfl
    [⟨[1, X], [[Z]], [1, X]⟩] [[X]] rfl (fun k hk ps hps => by
      obtain rfl : k = 0 := by simpa using hk
      obtain rfl : [X] = ps := by simpa using hps
      exact ⟨h, rfl⟩)
  exact ⟨g, h1⟩

end Ex126

end
end Verif.Cost
