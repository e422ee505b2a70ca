import Verif.Cost.Continuous
import Verif.Solver.Unital

/-!
# C138: the Lindblad solver solves the master equation

C38 is about the generators; here the states obtained from the forward propagators are compared with the solutions of the master equation,
with Hamiltonians and rates which are constant during the time steps.
-/

namespace Verif.Cost
open Verif Verif.Operator Verif.Solver Matrix

section
open scoped Matrix.Norms.L2Operator
variable {m : Type} [Fintype m] [DecidableEq m]

/-! ## Specification -/

/-- `X` solves `X' = G_t X` during the time step `t`, for all time steps. -/
structure StepwiseSol {N : Nat} (σ : Fin N → ℝ) (G : Fin N → Matrix m m ℂ) (X : ℝ → Matrix m m ℂ) : Prop where
  cont : Continuous X
  deriv : ∀ t : Fin N, ∀ s ∈ Set.Ico (gridPoint σ t) (gridPoint σ (t + 1)), HasDerivWithinAt X (G t * X s) (Set.Ici s) s

/-- `ρ` solves the Lindblad master equation of the solver's arguments, for the amplitudes `u` and the parameters `x`: during the
time step `t` with the Hamiltonian and the rates of this step. -/
structure LPar.Solves {n : Type} [Fintype n] [DecidableEq n] (p : LPar n) (Ls : List (Matrix n n ℂ)) (times : List ℝ) (u x : Pulse)
    (ρ : ℝ → Matrix n n ℂ) : Prop where
  cont : ContinuousOn ρ (Set.Icc 0 times.sum)
  deriv : ∀ (t : Nat) (H₀ : Matrix n n ℂ) (row : List ℝ), p.drift[t]? = some H₀ → u[t]? = some row →
    ∀ s ∈ Set.Ico (gridPoint (fun t : Fin times.length => times[t]) t) (gridPoint (fun t : Fin times.length => times[t]) (t + 1)),
      HasDerivWithinAt ρ (master (hamiltonian H₀ p.ctrl row) ((weightsAt p Ls u x t).zip Ls) (ρ s)) (Set.Ici s) s

/-! ## Lemmas -/

/-- The solution piece by piece, from the time `a` on. -/
noncomputable def pieces : List (ℝ × Matrix m m ℂ) → ℝ → Matrix m m ℂ → ℝ → Matrix m m ℂ
  | [], _, X₀, _ => X₀
  | (σ, G) :: l, a, X₀, s =>
    if s ≤ a + σ then NormedSpace.exp ((s - a) • G) * X₀ else pieces l (a + σ) (NormedSpace.exp (σ • G) * X₀) s

theorem pieces_start (l : List (ℝ × Matrix m m ℂ)) (hl : ∀ r ∈ l, 0 ≤ r.1) (a : ℝ) (X₀ : Matrix m m ℂ) : pieces l a X₀ a = X₀ := by
  cases l with
  | nil => rfl
  | cons r l =>
    have := hl r (by simp)
    simp [pieces, this]

theorem expPiece_deriv (G X₀ : Matrix m m ℂ) (a s : ℝ) :
    HasDerivAt (fun s : ℝ => NormedSpace.exp ((s - a) • G) * X₀) (G * (NormedSpace.exp ((s - a) • G) * X₀)) s := by
  let _ : NormedAlgebra ℝ (Matrix m m ℂ) := NormedAlgebra.restrictScalars ℝ ℂ _
  have h3 := (hasDerivAt_exp_smul_const' G (s - a : ℝ)).scomp s ((hasDerivAt_id s).sub_const a)
  have h4 := h3.mul_const X₀
  refine h4.congr_deriv ?_
  simp [Matrix.mul_assoc]

theorem pieces_cont (l : List (ℝ × Matrix m m ℂ)) (hl : ∀ r ∈ l, 0 ≤ r.1) (a : ℝ) (X₀ : Matrix m m ℂ) : Continuous (pieces l a X₀) := by
  induction l generalizing a X₀ with
  | nil => exact continuous_const
  | cons r l ih =>
    obtain ⟨σ, G⟩ := r
    have h1 : Continuous fun s : ℝ => NormedSpace.exp ((s - a) • G) * X₀ :=
      continuous_iff_continuousAt.2 fun s => (expPiece_deriv G X₀ a s).continuousAt
    refine Continuous.if_le h1 (ih (fun r hr => hl r (by simp [hr])) _ _) continuous_id continuous_const fun s hs => ?_
    have hs : s = a + σ := hs
    rw [hs, pieces_start l (fun r hr => hl r (by simp [hr]))]
    simp

theorem pieces_deriv (l : List (ℝ × Matrix m m ℂ)) (hl : ∀ r ∈ l, 0 ≤ r.1) (a : ℝ) (X₀ : Matrix m m ℂ) (t : Nat) (σ : ℝ) (G : Matrix m m ℂ)
    (ht : l[t]? = some (σ, G)) (s : ℝ) (h1 : a + ((l.take t).map Prod.fst).sum ≤ s) (h2 : s < a + ((l.take t).map Prod.fst).sum + σ) :
    HasDerivWithinAt (pieces l a X₀) (G * pieces l a X₀ s) (Set.Ici s) s := by
  induction l generalizing a X₀ t with
  | nil => simp at ht
  | cons r l ih =>
    obtain ⟨σ', G'⟩ := r
    have hσ' := hl (σ', G') (by simp)
    cases t with
    | zero =>
      simp only [List.getElem?_cons_zero, Option.some.injEq, Prod.mk.injEq] at ht
      obtain ⟨rfl, rfl⟩ := ht
      simp only [List.take_zero, List.map_nil, List.sum_nil, add_zero] at h1 h2
      have hev : pieces ((σ', G') :: l) a X₀ =ᶠ[nhds s] fun s => NormedSpace.exp ((s - a) • G') * X₀ := by
        filter_upwards [Iio_mem_nhds h2] with r hr
        exact if_pos (le_of_lt hr)
      have := (expPiece_deriv G' X₀ a s).congr_of_eventuallyEq hev
      rw [hev.eq_of_nhds]
      exact this.hasDerivWithinAt
    | succ t =>
      simp only [List.getElem?_cons_succ] at ht
      simp only [List.take_succ_cons, List.map_cons, List.sum_cons, ← add_assoc] at h1 h2
      have hnn : 0 ≤ ((l.take t).map Prod.fst).sum := by
        refine List.sum_nonneg fun x hx => ?_
        obtain ⟨r, hr, rfl⟩ := List.mem_map.1 hx
        exact hl r (by simp [List.mem_of_mem_take hr])
      have hs : a + σ' ≤ s := by simp only at hσ'; linarith
      have heq : ∀ r ∈ Set.Ici s, pieces ((σ', G') :: l) a X₀ r = pieces l (a + σ') (NormedSpace.exp (σ' • G') * X₀) r := by
        intro r hr
        rcases (hs.trans hr).lt_or_eq with h | h
        · exact if_neg (not_le.2 h)
        · rw [← h, pieces_start l (fun r hr => hl r (by simp [hr]))]
          simp [pieces]
      have := ih (fun r hr => hl r (by simp [hr])) (a + σ') (NormedSpace.exp (σ' • G') * X₀) t ht h1 h2
      rw [heq s Set.self_mem_Ici]
      exact this.congr heq (heq s Set.self_mem_Ici)

theorem gridPoint_take {N : Nat} (σ : Fin N → ℝ) (t : Nat) : gridPoint σ t = ((List.ofFn σ).take t).sum := by
  induction t with
  | zero => simp [gridPoint_zero]
  | succ t ih =>
    by_cases h : t < N
    · rw [gridPoint_succ σ ⟨t, h⟩, List.take_succ_eq_append_getElem (by simpa using h), List.sum_append, ← ih]
      simp
    · have e : gridPoint σ (t + 1) = gridPoint σ t := by
        unfold gridPoint
        refine Finset.sum_congr rfl fun k _ => ?_
        have := k.2
        rw [if_pos (by omega), if_pos (by omega)]
      rw [e, ih, List.take_of_length_le (by simp; omega), List.take_of_length_le (by simp; omega)]

/-- Solutions exist for every initial value. -/
theorem stepwise_exists {N : Nat} (σ : Fin N → ℝ) (hσ : ∀ t, 0 ≤ σ t) (G : Fin N → Matrix m m ℂ) (X₀ : Matrix m m ℂ) :
    ∃ X, X 0 = X₀ ∧ StepwiseSol σ G X := by
  have hl : ∀ r ∈ List.ofFn fun t => (σ t, G t), 0 ≤ r.1 := by
    intro r hr
    obtain ⟨t, rfl⟩ := (List.mem_ofFn' _ _).1 hr
    exact hσ t
  have hfst : ∀ t, (((List.ofFn fun t => (σ t, G t)).take t).map Prod.fst).sum = gridPoint σ t := by
    intro t
    rw [gridPoint_take, List.map_take]
    simp [List.map_ofFn, Function.comp_def]
  refine ⟨pieces (List.ofFn fun t => (σ t, G t)) 0 X₀, pieces_start _ hl 0 X₀, pieces_cont _ hl 0 X₀, fun t s hs => ?_⟩
  refine pieces_deriv _ hl 0 X₀ t (σ t) (G t) (by simp) s ?_ ?_
  · rw [hfst, zero_add]
    exact hs.1
  · rw [hfst, zero_add, ← gridPoint_succ]
    exact hs.2

theorem expBack_deriv (G : Matrix m m ℂ) (b s : ℝ) : HasDerivAt (fun s : ℝ => NormedSpace.exp ((b - s) • G))
    (-(NormedSpace.exp ((b - s) • G) * G)) s := by
  let _ : NormedAlgebra ℝ (Matrix m m ℂ) := NormedAlgebra.restrictScalars ℝ ℂ _
  have h3 := (hasDerivAt_exp_smul_const G (b - s : ℝ)).scomp s ((hasDerivAt_id s).const_sub b)
  simpa [Function.comp_def] using h3

/-- Comparison with the evolution generated by `G`. -/
theorem expBack_mulVec (G : Matrix m m ℂ) (b s : ℝ) {A : Set ℝ} {y : ℝ → m → ℂ} {y' : m → ℂ} (hy : HasDerivWithinAt y y' A s) :
    HasDerivWithinAt (fun s => NormedSpace.exp ((b - s) • G) *ᵥ y s) (NormedSpace.exp ((b - s) • G) *ᵥ (y' - G *ᵥ y s)) A s := by
  rw [hasDerivWithinAt_pi] at hy ⊢
  intro i
  simp only [Matrix.mulVec, dotProduct]
  have hEi : ∀ j, HasDerivWithinAt (fun s : ℝ => NormedSpace.exp ((b - s) • G) i j)
      ((-(NormedSpace.exp ((b - s) • G) * G)) i j) A s := fun j => by
    have hL := ((LinearMap.toContinuousLinearMap (Matrix.entryLinearMap ℂ ℂ i j)).restrictScalars ℝ).hasFDerivAt
      (x := NormedSpace.exp ((b - s) • G))
    exact (hL.comp_hasDerivAt s (expBack_deriv G b s)).hasDerivWithinAt
  have := HasDerivWithinAt.fun_sum fun j (_ : j ∈ Finset.univ) => (hEi j).mul (hy j)
  refine this.congr_deriv ?_
  rw [Finset.sum_add_distrib]
  change ((-(NormedSpace.exp ((b - s) • G) * G)) *ᵥ y s) i + (NormedSpace.exp ((b - s) • G) *ᵥ y') i =
    (NormedSpace.exp ((b - s) • G) *ᵥ (y' - G *ᵥ y s)) i
  rw [Matrix.mulVec_sub, Matrix.mulVec_mulVec, Matrix.neg_mulVec]
  simp only [Pi.neg_apply, Pi.sub_apply]
  ring

theorem expBack_cont (G : Matrix m m ℂ) (b : ℝ) {A : Set ℝ} {y : ℝ → m → ℂ} (hy : ContinuousOn y A) :
    ContinuousOn (fun s => NormedSpace.exp ((b - s) • G) *ᵥ y s) A := by
  have hEc : Continuous fun s : ℝ => NormedSpace.exp ((b - s) • G) :=
    continuous_iff_continuousAt.2 fun s => (expBack_deriv G b s).continuousAt
  refine continuousOn_pi.2 fun i => ?_
  simp only [Matrix.mulVec, dotProduct]
  refine continuousOn_finsetSum _ fun j _ => ?_
  exact (((continuous_apply_apply i j).comp hEc).continuousOn).mul ((continuous_apply j).comp_continuousOn hy)

/-- Solutions with vectors as values are given by the exponentials. -/
theorem stepwise_value {N : Nat} (σ : Fin N → ℝ) (hσ : ∀ t, 0 ≤ σ t) (G : Fin N → Matrix m m ℂ) (y : ℝ → m → ℂ)
    (hc : ContinuousOn y (Set.Icc 0 (∑ t, σ t)))
    (hd : ∀ t : Fin N, ∀ s ∈ Set.Ico (gridPoint σ t) (gridPoint σ (t + 1)), HasDerivWithinAt y (G t *ᵥ y s) (Set.Ici s) s) (t : Nat)
    (ht : t ≤ N) : (((List.ofFn fun t => NormedSpace.exp ((((σ t : ℝ)) : ℂ) • G t)).take t).foldl (fun F P => P * F) 1) *ᵥ y 0 =
      y (gridPoint σ t) := by
  let _ : NormedAlgebra ℝ (Matrix m m ℂ) := NormedAlgebra.restrictScalars ℝ ℂ _
  induction t with
  | zero => simp [gridPoint_zero]
  | succ t ih =>
    have hlen : t < (List.ofFn fun t => NormedSpace.exp ((((σ t : ℝ)) : ℂ) • G t)).length := by simpa using ht
    rw [List.take_succ_eq_append_getElem hlen, List.foldl_append]
    simp only [List.foldl_cons, List.foldl_nil, List.getElem_ofFn]
    rw [← Matrix.mulVec_mulVec, ih (Nat.le_of_succ_le ht)]
    set a := gridPoint σ t with ha
    set b := gridPoint σ (t + 1) with hb
    have hab : b = a + σ ⟨t, ht⟩ := gridPoint_succ σ ⟨t, ht⟩
    have hle : a ≤ b := gridPoint_mono hσ (Nat.le_succ _)
    have ha0 : 0 ≤ a := by rw [← gridPoint_zero σ]; exact gridPoint_mono hσ (Nat.zero_le _)
    have hbS : b ≤ ∑ t, σ t := by rw [← gridPoint_last σ]; exact gridPoint_mono hσ ht
    have hz := constant_of_has_deriv_right_zero (f := fun s => NormedSpace.exp ((b - s) • G ⟨t, ht⟩) *ᵥ y s) (a := a) (b := b)
      (expBack_cont _ b (hc.mono (Set.Icc_subset_Icc ha0 hbS)))
      (fun s hs => (expBack_mulVec _ b s (hd ⟨t, ht⟩ s ⟨hs.1, hs.2⟩)).congr_deriv (by rw [sub_self, Matrix.mulVec_zero]))
      b ⟨hle, le_rfl⟩
    simp only [sub_self, zero_smul, NormedSpace.exp_zero, Matrix.one_mulVec] at hz
    rw [hz, hab, add_sub_cancel_left, Complex.coe_smul]

variable {n : Type} [Fintype n] [DecidableEq n]

/-- The generators of the time steps, in the form used below. -/
theorem LPar.gens_fin (p : LPar n) (Ls : List (Matrix n n ℂ)) (times : List ℝ) (u x : Pulse)
    (hL : p.Lindblads Ls times u x) (hne : times ≠ []) (hd : p.drift.length = times.length) (hu : u.length = times.length)
    (hrow : ∀ row ∈ u, row.length = p.ctrl.length)
    (hdH : ∀ H ∈ p.drift, H.IsHermitian) (hcH : ∀ H ∈ p.ctrl, H.IsHermitian)
    (hm : p.method = .frechet) (hE : p.L.ExpmOk) (hi : p.init = 1) :
    ∃ (G : Fin times.length → Sup n) (f : List (Sup n)), p.fwd times u x = .ok f ∧ f.length = times.length + 1 ∧
      (∀ t ≤ times.length, f[t]? = some (((List.ofFn fun t => NormedSpace.exp (((times[t] : ℝ) : ℂ) • G t)).take t).foldl
        (fun F P => P * F) 1)) ∧
      ∀ (t : Fin times.length) (ρ : Matrix n n ℂ), G t *ᵥ vec ρ =
        vec (master (hamiltonian (p.drift[t]'(by rw [hd]; exact t.2)) p.ctrl (u[t]'(by rw [hu]; exact t.2)))
          ((weightsAt p Ls u x t).zip Ls) ρ) := by
  obtain ⟨g, hg, hl, hG⟩ := c38_generator p Ls times u x hL hne hd hrow hdH hcH
  obtain ⟨ps, f, h1, h2, h3, h4⟩ := p.run_ok (by rw [hm]; simp) times u x g hg hl
  have hps : ps = List.ofFn fun t : Fin times.length => NormedSpace.exp (((times[t] : ℝ) : ℂ) • g[t]) := by
    rw [h3]
    refine List.ext_getElem (by simp) fun i h5 h6 => ?_
    have h7 : i < times.length := by simpa using h6
    rw [List.getElem_map, List.getElem_range, List.getElem_ofFn, propOf_base p hm hE, List.getD_eq_getElem (l := g) _ (by omega),
      List.getD_eq_getElem _ _ h7]
    rfl
  refine ⟨fun t => g[t], f, h2, by rw [h4.1, hps]; simp, fun t ht => ?_, fun t ρ => ?_⟩
  · rw [isForward_unique h4 t (by rw [hps]; simpa using ht), hps, hi]
  · obtain ⟨G, e1, e2⟩ := hG t _ _ (List.getElem?_eq_getElem (by rw [hd]; exact t.2)) (List.getElem?_eq_getElem (by rw [hu]; exact t.2))
    have : g[t] = G := by
      have := List.getElem?_eq_getElem (l := g) (i := t) (by rw [hl]; exact t.2)
      rw [this] at e1
      exact Option.some.inj e1
    show g[t] *ᵥ vec ρ = _
    rw [this, e2]
    rfl

theorem sum_getElem_list (l : List ℝ) : ∑ t : Fin l.length, l[t] = l.sum := by
  conv_rhs => rw [← List.ofFn_getElem (xs := l)]
  rw [List.sum_ofFn]
  rfl

/-- The matrices as vectors, a continuous linear map. -/
noncomputable def vecL (n : Type) [Fintype n] [DecidableEq n] : Matrix n n ℂ →L[ℝ] (n × n → ℂ) :=
  LinearMap.toContinuousLinearMap
    { toFun := vec
      map_add' := fun _ _ => rfl
      map_smul' := fun _ _ => rfl }

noncomputable def unvecL (n : Type) [Fintype n] [DecidableEq n] (v : n × n → ℂ) : Matrix (n × n) (n × n) ℂ →L[ℝ] Matrix n n ℂ :=
  LinearMap.toContinuousLinearMap
    { toFun := fun A => unvec (A *ᵥ v)
      map_add' := fun A B => by rw [Matrix.add_mulVec]; rfl
      map_smul' := fun r A => by rw [Matrix.smul_mulVec]; rfl }

/-! ## C138 -/

/-- **C138** The states computed with the forward propagators are those of every solution of the master equation, at all times of the
grid. -/
theorem c138_master (p : LPar n) (Ls : List (Matrix n n ℂ)) (times : List ℝ) (u x : Pulse)
    (hL : p.Lindblads Ls times u x) (hne : times ≠ []) (hd : p.drift.length = times.length) (hu : u.length = times.length)
    (hrow : ∀ row ∈ u, row.length = p.ctrl.length)
    (hdH : ∀ H ∈ p.drift, H.IsHermitian) (hcH : ∀ H ∈ p.ctrl, H.IsHermitian)
    (hm : p.method = .frechet) (hE : p.L.ExpmOk) (hi : p.init = 1) (hpos : ∀ τ ∈ times, 0 ≤ τ) :
    ∃ f, p.fwd times u x = .ok f ∧ f.length = times.length + 1 ∧ ∀ ρ : ℝ → Matrix n n ℂ, LPar.Solves p Ls times u x ρ →
      ∀ t ≤ times.length, stateAt f t (ρ 0) = ρ (gridPoint (fun t : Fin times.length => times[t]) t) := by
  obtain ⟨G, f, h1, h2, h3, h4⟩ := LPar.gens_fin p Ls times u x hL hne hd hu hrow hdH hcH hm hE hi
  refine ⟨f, h1, h2, fun ρ hρ t ht => ?_⟩
  have hv := stepwise_value (fun t : Fin times.length => times[t]) (fun t => hpos _ (List.getElem_mem _)) G (fun s => vec (ρ s))
    (by
      rw [sum_getElem_list]
      exact (vecL n).continuous.comp_continuousOn hρ.cont)
    (fun t s hs => by
      have h5 := hρ.deriv t _ _ (List.getElem?_eq_getElem (by rw [hd]; exact t.2)) (List.getElem?_eq_getElem (by rw [hu]; exact t.2)) s hs
      rw [h4]
      exact (vecL n).hasFDerivAt.comp_hasDerivWithinAt s h5) t ht
  unfold stateAt
  rw [List.getD_eq_getElem?_getD, h3 t ht, Option.getD_some]
  exact congrArg unvec hv

/-- **C138** The master equation has a solution for every initial state, so that the solver computes the evolution of all states. -/
theorem c138_exists (p : LPar n) (Ls : List (Matrix n n ℂ)) (times : List ℝ) (u x : Pulse)
    (hL : p.Lindblads Ls times u x) (hne : times ≠ []) (hd : p.drift.length = times.length) (hu : u.length = times.length)
    (hrow : ∀ row ∈ u, row.length = p.ctrl.length)
    (hdH : ∀ H ∈ p.drift, H.IsHermitian) (hcH : ∀ H ∈ p.ctrl, H.IsHermitian)
    (hm : p.method = .frechet) (hE : p.L.ExpmOk) (hi : p.init = 1) (hpos : ∀ τ ∈ times, 0 ≤ τ) (ρ₀ : Matrix n n ℂ) :
    ∃ f ρ, p.fwd times u x = .ok f ∧ LPar.Solves p Ls times u x ρ ∧
      ∀ t ≤ times.length, stateAt f t ρ₀ = ρ (gridPoint (fun t : Fin times.length => times[t]) t) := by
  obtain ⟨G, f, h1, h2, h3, h4⟩ := LPar.gens_fin p Ls times u x hL hne hd hu hrow hdH hcH hm hE hi
  obtain ⟨X, hX0, hX⟩ := stepwise_exists (fun t : Fin times.length => times[t]) (fun t => hpos _ (List.getElem_mem _)) G 1
  have hS : LPar.Solves p Ls times u x (fun s => unvec (X s *ᵥ vec ρ₀)) := by
    refine ⟨((unvecL n (vec ρ₀)).continuous.comp hX.cont).continuousOn, fun t H₀ row e1 e2 s hs => ?_⟩
    have ht : t < times.length := by
      rw [← hd]
      exact (List.getElem?_eq_some_iff.1 e1).1
    have h5 := (unvecL n (vec ρ₀)).hasFDerivAt.comp_hasDerivWithinAt s (hX.deriv ⟨t, ht⟩ s hs)
    refine h5.congr_deriv ?_
    have h6 := h4 ⟨t, ht⟩ (unvec (X s *ᵥ vec ρ₀))
    rw [vec_unvec, Matrix.mulVec_mulVec] at h6
    obtain ⟨-, rfl⟩ := List.getElem?_eq_some_iff.1 e1
    obtain ⟨-, rfl⟩ := List.getElem?_eq_some_iff.1 e2
    exact congrArg unvec h6
  obtain ⟨f', h1', -, h7⟩ := c138_master p Ls times u x hL hne hd hu hrow hdH hcH hm hE hi hpos
  rw [h1] at h1'
  cases h1'
  refine ⟨f, _, h1, hS, fun t ht => ?_⟩
  have := h7 _ hS t ht
  simp only [hX0, Matrix.one_mulVec] at this
  exact this

/-! ## Closed systems -/

theorem step_unique {N : Nat} {σ : Fin N → ℝ} (hσ : ∀ t, 0 ≤ σ t) {t t' : Fin N} {s : ℝ}
    (h : s ∈ Set.Ico (gridPoint σ t) (gridPoint σ (t + 1))) (h' : s ∈ Set.Ico (gridPoint σ t') (gridPoint σ (t' + 1))) : t = t' := by
  have key : ∀ {a b : Fin N}, s < gridPoint σ (a + 1) → gridPoint σ b ≤ s → ¬ a < b := by
    intro a b h1 h2 h3
    exact absurd ((gridPoint_mono hσ (Nat.succ_le_of_lt h3)).trans h2) (not_le.2 h1)
  rcases lt_trichotomy t t' with h1 | h1 | h1
  · exact absurd h1 (key h.2 h'.1)
  · exact h1
  · exact absurd h1 (key h'.2 h.1)

/-- The function which is constant during the time steps. -/
theorem stepped_function {N : Nat} {σ : Fin N → ℝ} (hσ : ∀ t, 0 ≤ σ t) {α : Type*} [Inhabited α] (a : Fin N → α) :
    ∃ F : ℝ → α, ∀ t : Fin N, ∀ s ∈ Set.Ico (gridPoint σ t) (gridPoint σ (t + 1)), F s = a t := by
  classical
  refine ⟨fun s => if h : ∃ t : Fin N, s ∈ Set.Ico (gridPoint σ t) (gridPoint σ (t + 1)) then a h.choose else default, fun t s hs => ?_⟩
  have h : ∃ t : Fin N, s ∈ Set.Ico (gridPoint σ t) (gridPoint σ (t + 1)) := ⟨t, hs⟩
  simp only [dif_pos h]
  rw [step_unique hσ h.choose_spec hs]

/-- **C136** For every pulse the Schroedinger equation with the Hamiltonians of the time steps has a solution, which is the one in
`c136_stepped`. -/
theorem c136_exists (p : SPar n n) (τ : List ℝ) (hτ : ∀ t, 0 ≤ (p.xTimes τ).get t)
    (U : Fin (p.xTimes τ).length → Fin p.ctrl.length → ℝ) :
    ∃ D v X, ContinuousSystem p τ D v X ∧
      ∀ (t : Fin (p.xTimes τ).length), ∀ s ∈ Set.Ico (gridPoint (p.xTimes τ).get t) (gridPoint (p.xTimes τ).get (t + 1)), v s = U t := by
  obtain ⟨D, hD⟩ := stepped_function hτ fun t : Fin (p.xTimes τ).length => p.drift.getD t 0
  obtain ⟨v, hv⟩ := stepped_function hτ U
  obtain ⟨X, hX0, hX⟩ := stepwise_exists (p.xTimes τ).get hτ
    (fun t => (-Complex.I) • (p.drift.getD t 0 + ∑ c, ((U t c : ℝ) : ℂ) • p.ctrl.get c)) p.init
  refine ⟨D, v, X, ⟨hτ, hD, hX0, hX.cont.continuousOn, fun s hs => ?_⟩, hv⟩
  obtain ⟨t, ht⟩ := step_of_time hs
  refine (hX.deriv t s ht).congr_deriv ?_
  unfold continuousHam
  rw [hD t s ht, hv t s ht, Matrix.smul_mul]

/-- `c136_exists` applies: a qubit with two controls and three time steps. -/
example (L : Lapack (Fin 2)) (U : Fin 3 → Fin 2 → ℝ) : ∃ D v X, ContinuousSystem (Ex136.par L) [1, 2, 3] D v X ∧
    ∀ t : Fin 3, ∀ s ∈ Set.Ico (gridPoint ((Ex136.par L).xTimes [1, 2, 3]).get t) (gridPoint ((Ex136.par L).xTimes [1, 2, 3]).get (t + 1)),
      v s = U t :=
  c136_exists (Ex136.par L) [1, 2, 3] (fun t => by
    have : ((Ex136.par L).xTimes [1, 2, 3]).get t ∈ [(1 : ℝ), 2, 3] := List.get_mem _ _
    simp only [List.mem_cons, List.not_mem_nil, or_false] at this
    rcases this with h | h | h <;> rw [h] <;> norm_num) U

namespace Ex138

/-- A qubit which decays while its splitting is controlled. -/
noncomputable def decay (L : Lapack (Fin 2 × Fin 2)) : LPar (Fin 2) :=
  ⟨L, .frechet, false, 1, [0, 0], [!![1, 0; 0, -1]], ⟨none, some [!![0, 1; 0, 0]], none, none, none, none⟩⟩

/-- The population of the excited state falls exponentially. -/
noncomputable def pop (s : ℝ) : Matrix (Fin 2) (Fin 2) ℂ := !![((1 - Real.exp (-s) : ℝ) : ℂ), 0; 0, ((Real.exp (-s) : ℝ) : ℂ)]

theorem pop_deriv (s : ℝ) : HasDerivAt pop ((Real.exp (-s) : ℝ) • !![(1 : ℂ), 0; 0, -1]) s := by
  have h : pop = fun s => (!![(1 : ℂ), 0; 0, 0]) + (Real.exp (-s) : ℝ) • !![(-1 : ℂ), 0; 0, 1] := by
    funext s
    ext i j
    fin_cases i <;> fin_cases j <;> simp [pop, sub_eq_add_neg]
  have h1 : HasDerivAt (fun s : ℝ => Real.exp (-s)) (-Real.exp (-s)) s := by
    simpa using (hasDerivAt_neg s).exp
  rw [h]
  refine ((h1.smul_const (!![(-1 : ℂ), 0; 0, 1])).const_add _).congr_deriv ?_
  ext i j
  fin_cases i <;> fin_cases j <;> simp

theorem solves (L : Lapack (Fin 2 × Fin 2)) (a b : ℝ) :
    LPar.Solves (decay L) [!![0, 1; 0, 0]] [1, 2] [[a], [b]] [] pop := by
  refine ⟨fun s _ => (pop_deriv s).continuousAt.continuousWithinAt, fun t H₀ row e1 e2 s _ => ?_⟩
  refine (pop_deriv s).hasDerivWithinAt.congr_deriv ?_
  have hH : H₀ = 0 := by
    have := List.mem_of_getElem? e1
    simpa [decay] using this
  have hr : row = [a] ∨ row = [b] := by
    have := List.mem_of_getElem? e2
    simpa using this
  obtain ⟨c, hc⟩ : ∃ c : ℝ, row = [c] := by
    rcases hr with h | h
    · exact ⟨a, h⟩
    · exact ⟨b, h⟩
  subst hH hc
  have hT : (!![0, 1; 0, 0] : Matrix (Fin 2) (Fin 2) ℂ)ᴴ = !![0, 0; 1, 0] := by
    ext i j
    fin_cases i <;> fin_cases j <;> simp
  ext i j
  fin_cases i <;> fin_cases j <;>
    simp [master, hamiltonian, decay, weightsAt, pop, hT] <;> ring_nf

/-- The state after the second step, whatever the amplitudes are. -/
example (a b : ℝ) : ∃ (L : Lapack (Fin 2 × Fin 2)) (f : _), (decay L).fwd [1, 2] [[a], [b]] [] = .ok f ∧
    stateAt f 2 !![0, 0; 0, 1] = !![((1 - Real.exp (-3) : ℝ) : ℂ), 0; 0, ((Real.exp (-3) : ℝ) : ℂ)] := by
  obtain ⟨L, -, -, hE, -⟩ := lapack_exists (Fin 2 × Fin 2)
  obtain ⟨f, h1, -, h2⟩ := c138_master (decay L) [!![0, 1; 0, 0]] [1, 2] [[a], [b]] [] ⟨rfl, rfl, by simp, fun f hf => by cases hf⟩
    (by simp) rfl rfl (by simp [decay]) (by simp [decay, Matrix.IsHermitian])
    (by
      intro H hH
      rw [show (decay L).ctrl = [!![1, 0; 0, -1]] from rfl, List.mem_singleton] at hH
      subst hH
      ext i j
      fin_cases i <;> fin_cases j <;> simp)
    rfl hE rfl (by simp)
  refine ⟨L, f, h1, ?_⟩
  have := h2 pop (solves L a b) 2 le_rfl
  rw [show gridPoint (fun t : Fin [(1 : ℝ), 2].length => [(1 : ℝ), 2][t]) 2 = 3 by
    rw [gridPoint_take]
    simp
    norm_num] at this
  simpa [pop] using this

end Ex138

end
end Verif.Cost
