import Verif.Cost.Angle
import Verif.Cost.Gradient

/-!
# The derivatives of the fidelities as plain functions (cost_functions.py:1874-1926, 2000-2077)

`derivative_entanglement_fidelity`, `derivative_average_gate_fidelity` and `derivative_average_gate_fid_with_du`.  Arrays of operators
with shape `(num_t, num_ctrl)` are functions of two indices with their shape.  Operators are values: the in place products act on
objects created in the same iteration.
-/

namespace Verif.Cost
open Verif Verif.Operator Verif.Solver Matrix

section
variable {n : Type} [Fintype n] [DecidableEq n]

/-- `propagators_future`, cost_functions.py:2009-2013, 2048-2052: the cumulative products of the reversed list, reversed. -/
def futures (ps : List (Matrix n n ℂ)) : List (Matrix n n ℂ) := (ps.reverse.scanl (fun acc p => acc * p) 1).reverse

/-- Indexing of a Python list with a number which is not negative. -/
def at? {α : Type} (l : List α) (i : Nat) : Except PyErr α :=
  match l[i]? with
  | some a => .ok a
  | none => .error .indexError

/-- The loop over time steps and controls which fills an array of shape `(num_t, num_ctrl)`. -/
def fill {α : Type} (numT numC : Nat) (f : Nat → Nat → Except PyErr α) : Except PyErr (List (List α)) :=
  (List.range numT).mapM fun t => (List.range numC).mapM fun c => f t c

/-- The body of `derivative_average_gate_fid_with_du` for one time step and control, cost_functions.py:2062-2076. -/
noncomputable def avgDuEntry (T B A0 A1 dU : Matrix (Fin 2) (Fin 2) ℂ) : ℂ :=
  let bk := Bᴴ * T
  let temp := orthSet.map fun ort =>
    let lam := bk * ortᴴ * bkᴴ
    let rho := A0 * ort * A1ᴴ
    (lam * (dU * rho + rhoᴴ * dUᴴ)).trace
  temp.sum / (2 ^ 2 * (2 + 1))

/-- The same with the list accesses. -/
noncomputable def avgDuCell (ps past : List (Matrix (Fin 2) (Fin 2) ℂ)) (dU : Nat → Nat → Matrix (Fin 2) (Fin 2) ℂ)
    (T : Matrix (Fin 2) (Fin 2) ℂ) (t c : Nat) : Except PyErr ℂ :=
  match at? (futures ps) (t + 1), at? past t, at? past (t + 1) with
  | .ok B, .ok A0, .ok A1 => .ok (avgDuEntry T B A0 A1 (dU t c))
  | _, _, _ => .error .indexError

/-- `derivative_average_gate_fid_with_du`, cost_functions.py:2046-2077, in two dimensions. -/
noncomputable def avgDu (ps past : List (Matrix (Fin 2) (Fin 2) ℂ)) (numT numC : Nat) (dU : Nat → Nat → Matrix (Fin 2) (Fin 2) ℂ)
    (T : Matrix (Fin 2) (Fin 2) ℂ) : Except PyErr (List (List ℂ)) :=
  fill numT numC (avgDuCell ps past dU T)

/-- The body of `derivative_average_gate_fidelity`, cost_functions.py:2022-2040. -/
noncomputable def avgGrapeEntry (T B A H : Matrix (Fin 2) (Fin 2) ℂ) (δ : ℝ) : ℂ :=
  let bk := Bᴴ * T
  let temp := orthSet.map fun ort =>
    let lam := bk * ortᴴ * bkᴴ
    let rho := A * ort * Aᴴ
    (((δ : ℂ) • ((-Complex.I) • lam)) * (H * rho - rho * H)).trace
  temp.sum / (2 ^ 2 * (2 + 1))

/-- The same with the list accesses. -/
noncomputable def avgGrapeCell (H : Nat → Nat → Matrix (Fin 2) (Fin 2) ℂ) (ps past : List (Matrix (Fin 2) (Fin 2) ℂ)) (δ : ℝ)
    (T : Matrix (Fin 2) (Fin 2) ℂ) (t c : Nat) : Except PyErr ℂ :=
  match at? (futures ps) (t + 1), at? past (t + 1) with
  | .ok B, .ok A => .ok (avgGrapeEntry T B A (H t c) δ)
  | _, _ => .error .indexError

/-- `derivative_average_gate_fidelity`, cost_functions.py:2006-2041, with one duration for all steps. -/
noncomputable def avgGrape (H : Nat → Nat → Matrix (Fin 2) (Fin 2) ℂ) (numT numC : Nat) (ps past : List (Matrix (Fin 2) (Fin 2) ℂ)) (δ : ℝ)
    (T : Matrix (Fin 2) (Fin 2) ℂ) : Except PyErr (List (List ℂ)) :=
  fill numT numC (avgGrapeCell H ps past δ T)

/-- The argument `delta_t`: a list as documented, or an array. -/
inductive Durations where
  | list (l : List ℝ)
  | array (l : List ℝ)

/-- The body of the loops, cost_functions.py:1921-1925.  The factor is multiplied with `delta_t` first: a float times a list raises
TypeError; an array of other than one element cannot be assigned to an element of the result (ValueError). -/
noncomputable def entGrapeCell (Hs fwd rev : List (Matrix n n ℂ)) (δ : Durations) (T U : Matrix n n ℂ) (t c : Nat) : Except PyErr ℝ :=
  match δ with
  | .list _ => .error .typeError
  | .array l =>
    match at? rev.reverse (t + 1), at? Hs c, at? fwd (t + 1) with
    | .ok R, .ok H, .ok A =>
      match l with
      | [τ] => .ok (2 / (Fintype.card n : ℝ) / (Fintype.card n : ℝ) * τ * (star (U * Tᴴ).trace * (R * H * A * Tᴴ).trace).im)
      | _ => .error .valueError
    | _, _, _ => .error .indexError

/-- `len(delta_t)` -/
def Durations.len : Durations → Nat
  | .list l => l.length
  | .array l => l.length

/-- `derivative_entanglement_fidelity`, cost_functions.py:1909-1926. -/
noncomputable def entGrape (Hs fwd rev : List (Matrix n n ℂ)) (δ : Durations) (T : Matrix n n ℂ) : Except PyErr (List (List ℝ)) :=
  match fwd.getLast? with
  | none => .error .indexError
  | some U => fill δ.len Hs.length (entGrapeCell Hs fwd rev δ T U)

/-! ## Lemmas -/

theorem futures_isReversed (ps : List (Matrix n n ℂ)) : IsReversed ps (futures ps).reverse := by
  unfold futures
  rw [List.reverse_reverse]
  refine ⟨by simp, ?_, fun i hi => ?_⟩
  · cases ps.reverse <;> simp
  · have hi' : i < ps.reverse.length := by simpa using hi
    refine ⟨_, List.getElem?_eq_getElem (by simp; omega), ?_⟩
    rw [List.getElem?_eq_getElem (by simp; omega), List.getElem_succ_scanl]
    simp [List.getElem_reverse]

theorem fill_ok {α : Type} {numT numC : Nat} {f : Nat → Nat → Except PyErr α} (v : Nat → Nat → α)
    (h : ∀ t < numT, ∀ c < numC, f t c = .ok (v t c)) :
    fill numT numC f = .ok ((List.range numT).map fun t => (List.range numC).map fun c => v t c) := by
  have inner : ∀ (l : List Nat) (g : Nat → Except PyErr α) (w : Nat → α), (∀ c ∈ l, g c = .ok (w c)) → l.mapM g = .ok (l.map w) := by
    intro l g w
    induction l with
    | nil => intro _; rfl
    | cons a l ih =>
      intro h
      rw [List.mapM_cons, h a (by simp), ih fun c hc => h c (by simp [hc])]
      rfl
  have outer : ∀ (l : List Nat), (∀ t ∈ l, t < numT) → (l.mapM fun t => (List.range numC).mapM fun c => f t c) =
      .ok (l.map fun t => (List.range numC).map fun c => v t c) := by
    intro l
    induction l with
    | nil => intro _; rfl
    | cons a l ih =>
      intro hl
      rw [List.mapM_cons, inner (List.range numC) (f a) (v a) (fun c hc => h a (hl a (by simp)) c (List.mem_range.mp hc)),
        ih fun t ht => hl t (by simp [ht])]
      rfl
  exact outer _ fun t ht => List.mem_range.mp ht

/-- Entry of a table by time step and control. -/
def cell {α : Type} (g : List (List α)) (t c : Nat) : Option α := g[t]?.bind fun row => row[c]?

theorem cell_range {α : Type} (numT numC : Nat) (v : Nat → Nat → α) {t c : Nat} (ht : t < numT) (hc : c < numC) :
    cell ((List.range numT).map fun t => (List.range numC).map fun c => v t c) t c = some (v t c) := by
  simp [cell, ht, hc]

theorem avgGateFid_eq (U T : Matrix (Fin 2) (Fin 2) ℂ) :
    avgGateFid U T = ((orthSet.map fun ort => (T * ortᴴ * Tᴴ * U * ort * Uᴴ).trace).sum + 2 ^ 2) / (2 ^ 2 * (2 + 1)) := by
  have hf : ∀ (l : List (Matrix (Fin 2) (Fin 2) ℂ)) (X : Matrix (Fin 2) (Fin 2) ℂ), (l.foldl (· + ·) X).trace = X.trace + (l.map Matrix.trace).sum := by
    intro l
    induction l with
    | nil => intro X; simp
    | cons a l ih => intro X; rw [List.foldl_cons, ih, Matrix.trace_add, List.map_cons, List.sum_cons, add_assoc]
  unfold avgGateFid
  simp only
  rw [hf, Matrix.trace_zero, zero_add, List.map_map]
  congr 3
  refine List.map_congr_left fun ort _ => ?_
  simp only [Function.comp, Matrix.conjTranspose_mul, Matrix.conjTranspose_conjTranspose, ← Matrix.mul_assoc]
  rw [Matrix.trace_mul_comm]
  simp only [← Matrix.mul_assoc]

theorem orth_hermitian {ort : Matrix (Fin 2) (Fin 2) ℂ} (h : ort ∈ orthSet) : ortᴴ = ort := by
  simp only [orthSet, List.mem_cons, List.not_mem_nil, or_false] at h
  rcases h with rfl | rfl | rfl | rfl <;> ext i j <;> fin_cases i <;> fin_cases j <;> simp

theorem hasDerivAt_list_sum {α : Type} (l : List α) {f : α → ℝ → ℂ} {f' : α → ℂ} {x : ℝ} (h : ∀ a ∈ l, HasDerivAt (f a) (f' a) x) :
    HasDerivAt (fun y => (l.map fun a => f a y).sum) (l.map f').sum x := by
  induction l with
  | nil => simpa using hasDerivAt_const x (0 : ℂ)
  | cons a l ih =>
    simp only [List.map_cons, List.sum_cons]
    exact (h a (by simp)).add (ih fun b hb => h b (by simp [hb]))

/-- Derivative of the average gate fidelity along a curve of operators. -/
theorem avgGateFid_deriv (T : Matrix (Fin 2) (Fin 2) ℂ) {U : ℝ → Matrix (Fin 2) (Fin 2) ℂ} {U' : Matrix (Fin 2) (Fin 2) ℂ} {x : ℝ}
    (h : MatDeriv U U' x) : HasDerivAt (fun y => avgGateFid (U y) T)
      ((orthSet.map fun ort => (T * ortᴴ * Tᴴ * (U' * ort * (U x)ᴴ + U x * ort * U'ᴴ)).trace).sum / (2 ^ 2 * (2 + 1))) x := by
  simp only [avgGateFid_eq]
  refine HasDerivAt.div_const ?_ _
  refine HasDerivAt.add_const _ ?_
  refine hasDerivAt_list_sum orthSet (f := fun ort y => (T * ortᴴ * Tᴴ * U y * ort * (U y)ᴴ).trace) fun ort _ => ?_
  have h1 := (((h.mul_const ort).mul h.conjTranspose).const_mul (T * ortᴴ * Tᴴ)).trace
  have e : (fun y => (T * ortᴴ * Tᴴ * U y * ort * (U y)ᴴ).trace) = fun y => (T * ortᴴ * Tᴴ * (U y * ort * (U y)ᴴ)).trace := by
    funext y
    simp only [Matrix.mul_assoc]
  rw [e]
  exact h1

theorem trace_rot (R X : Matrix n n ℂ) (L : Matrix n n ℂ) : (L * (R * X * Rᴴ)).trace = ((Rᴴ * L * R) * X).trace := by
  rw [← Matrix.mul_assoc, Matrix.trace_mul_comm]
  simp only [Matrix.mul_assoc]

/-- The entry is the derivative, where the final operator is `R P F`. -/
theorem avgDuEntry_deriv (T R F dU : Matrix (Fin 2) (Fin 2) ℂ) {P : ℝ → Matrix (Fin 2) (Fin 2) ℂ} (h : MatDeriv P dU 0) :
    HasDerivAt (fun x => avgGateFid (R * P x * F) T) (avgDuEntry T R F (P 0 * F) dU) 0 := by
  have h1 := avgGateFid_deriv T ((h.const_mul R).mul_const F)
  refine h1.congr_deriv ?_
  unfold avgDuEntry
  simp only
  congr 2
  refine List.map_congr_left fun ort ho => ?_
  have e : R * dU * F * ort * (R * P 0 * F)ᴴ + R * P 0 * F * ort * (R * dU * F)ᴴ =
      R * (dU * (F * ort * (P 0 * F)ᴴ) + (F * ort * (P 0 * F)ᴴ)ᴴ * dUᴴ) * Rᴴ := by
    simp only [Matrix.conjTranspose_mul, Matrix.conjTranspose_conjTranspose, orth_hermitian ho, Matrix.mul_add, Matrix.add_mul,
      Matrix.mul_assoc]
  rw [e, trace_rot]
  simp only [Matrix.conjTranspose_mul, Matrix.conjTranspose_conjTranspose, Matrix.mul_assoc]

theorem avgGrapeEntry_eq (T R F P H : Matrix (Fin 2) (Fin 2) ℂ) (hH : H.IsHermitian) (δ : ℝ) :
    avgGrapeEntry T R (P * F) H δ = avgDuEntry T R F (P * F) (((δ : ℂ) * -Complex.I) • (H * P)) := by
  unfold avgGrapeEntry avgDuEntry
  simp only
  congr 2
  refine List.map_congr_left fun ort ho => ?_
  have h1 : Hᴴ = H := hH
  have hs : star ((δ : ℂ) * -Complex.I) = -((δ : ℂ) * -Complex.I) := by
    simp
  have e : ((δ : ℂ) * -Complex.I) • (H * P) * (F * ort * (P * F)ᴴ) + (F * ort * (P * F)ᴴ)ᴴ * (((δ : ℂ) * -Complex.I) • (H * P))ᴴ =
      ((δ : ℂ) * -Complex.I) • (H * (P * F * ort * (P * F)ᴴ) - P * F * ort * (P * F)ᴴ * H) := by
    rw [Matrix.conjTranspose_smul, hs]
    simp only [Matrix.conjTranspose_mul, Matrix.conjTranspose_conjTranspose, orth_hermitian ho, h1, Matrix.smul_mul, neg_smul,
      Matrix.mul_neg, Matrix.mul_smul, Matrix.mul_assoc, smul_sub, sub_eq_add_neg, smul_add, smul_neg]
  rw [e, smul_smul, Matrix.smul_mul, Matrix.mul_smul]

/-! ## C88 -/

/-- Neighbouring forward propagators. -/
theorem forward_succ {init : Matrix n n ℂ} {ps past : List (Matrix n n ℂ)} (h : IsForward init ps past) {t : Nat} {P F : Matrix n n ℂ}
    (hP : ps[t]? = some P) (hF : past[t]? = some F) : past[t + 1]? = some (P * F) := by
  obtain ⟨ht, e⟩ := List.getElem?_eq_some_iff.mp hP
  obtain ⟨F', h1, h2⟩ := h.2.2 t ht
  rw [hF] at h1
  cases h1
  rw [h2, e]

/-- **C88** `derivative_average_gate_fid_with_du` contains, for every time step and control, the derivative of the average gate fidelity of
the final operator along every curve of propagators with the given derivative. -/
theorem c88_with_derivatives (ps past : List (Matrix (Fin 2) (Fin 2) ℂ)) (init : Matrix (Fin 2) (Fin 2) ℂ) (hp : IsForward init ps past)
    (numC : Nat) (dU : Nat → Nat → Matrix (Fin 2) (Fin 2) ℂ) (T : Matrix (Fin 2) (Fin 2) ℂ) :
    ∃ g, avgDu ps past ps.length numC dU T = .ok g ∧ g.length = ps.length ∧ (∀ row ∈ g, row.length = numC) ∧
      ∀ t c (P : ℝ → Matrix (Fin 2) (Fin 2) ℂ) (fwds : ℝ → List (Matrix (Fin 2) (Fin 2) ℂ)) (U : ℝ → Matrix (Fin 2) (Fin 2) ℂ), c < numC →
        Sweep init ps t P (dU t c) fwds → (∀ x, (fwds x).getLast? = some (U x)) →
        ∃ v, cell g t c = some v ∧ HasDerivAt (fun x => avgGateFid (U x) T) v 0 := by
  have hrev := futures_isReversed ps
  have key : ∀ t < ps.length, ∃ R F, (futures ps)[t + 1]? = some R ∧ past[t]? = some F := by
    intro t ht
    obtain ⟨R, F, h1, h2, -⟩ := final_set hp hrev t ht
    rw [List.reverse_reverse] at h1
    exact ⟨R, F, h1, h2⟩
  have hin : ∀ t < ps.length, ∀ c < numC, avgDuCell ps past dU T t c =
      .ok (avgDuEntry T ((futures ps).getD (t + 1) 0) (past.getD t 0) (ps.getD t 0 * past.getD t 0) (dU t c)) := by
    intro t ht c _
    obtain ⟨R, F, h1, h2⟩ := key t ht
    have hP : ps[t]? = some ps[t] := List.getElem?_eq_getElem ht
    simp only [avgDuCell, at?, h1, h2, forward_succ hp hP h2, List.getD_eq_getElem?_getD, hP, Option.getD_some]
  refine ⟨_, fill_ok _ hin, by simp, by simp, fun t c P fwds U hc hs hU => ?_⟩
  have ht := ps_ne hs
  obtain ⟨R, F, h1, h2, h3⟩ := final_set hp hrev t ht
  rw [List.reverse_reverse] at h1
  refine ⟨_, cell_range _ _ _ ht hc, ?_⟩
  have hU' : U = fun x => R * P x * F := by
    funext x
    have := h3 _ _ (hs.forward x)
    rw [hU x] at this
    exact Option.some.inj this
  rw [hU']
  simp only [List.getD_eq_getElem?_getD, h1, h2, hs.start, Option.getD_some]
  exact avgDuEntry_deriv T R F _ hs.deriv

/-- **C88** `derivative_average_gate_fidelity` is the same with the derivatives `-i δ H P` of the grape approximation, for Hermitian
control operators. -/
theorem c88_grape (ps past : List (Matrix (Fin 2) (Fin 2) ℂ)) (init : Matrix (Fin 2) (Fin 2) ℂ) (hp : IsForward init ps past)
    (numC : Nat) (H : Nat → Nat → Matrix (Fin 2) (Fin 2) ℂ) (hH : ∀ t c, (H t c).IsHermitian) (δ : ℝ) (T : Matrix (Fin 2) (Fin 2) ℂ) :
    ∃ g, avgGrape H ps.length numC ps past δ T = .ok g ∧ g.length = ps.length ∧ (∀ row ∈ g, row.length = numC) ∧
      ∀ t c (P : ℝ → Matrix (Fin 2) (Fin 2) ℂ) (fwds : ℝ → List (Matrix (Fin 2) (Fin 2) ℂ)) (U : ℝ → Matrix (Fin 2) (Fin 2) ℂ), c < numC →
        Sweep init ps t P (((δ : ℂ) * -Complex.I) • (H t c * P 0)) fwds → (∀ x, (fwds x).getLast? = some (U x)) →
        ∃ v, cell g t c = some v ∧ HasDerivAt (fun x => avgGateFid (U x) T) v 0 := by
  have hrev := futures_isReversed ps
  have hin : ∀ t < ps.length, ∀ c < numC, avgGrapeCell H ps past δ T t c =
      .ok (avgGrapeEntry T ((futures ps).getD (t + 1) 0) (ps.getD t 0 * past.getD t 0) (H t c) δ) := by
    intro t ht c _
    obtain ⟨R, F, h1, h2, -⟩ := final_set hp hrev t ht
    rw [List.reverse_reverse] at h1
    have hP : ps[t]? = some ps[t] := List.getElem?_eq_getElem ht
    simp only [avgGrapeCell, at?, h1, h2, forward_succ hp hP h2, List.getD_eq_getElem?_getD, hP, Option.getD_some]
  refine ⟨_, fill_ok _ hin, by simp, by simp, fun t c P fwds U hc hs hU => ?_⟩
  have ht := ps_ne hs
  obtain ⟨R, F, h1, h2, h3⟩ := final_set hp hrev t ht
  rw [List.reverse_reverse] at h1
  refine ⟨_, cell_range _ _ _ ht hc, ?_⟩
  have hU' : U = fun x => R * P x * F := by
    funext x
    have := h3 _ _ (hs.forward x)
    rw [hU x] at this
    exact Option.some.inj this
  rw [hU']
  simp only [List.getD_eq_getElem?_getD, h1, h2, hs.start, Option.getD_some]
  rw [avgGrapeEntry_eq T R F (P 0) (H t c) (hH t c) δ]
  exact avgDuEntry_deriv T R F _ hs.deriv

/-- **C88** (partial): `derivative_entanglement_fidelity` with an array of one duration returns the derivatives of the entanglement fidelity
with respect to the controls of the first step.  Missing: other durations (`c88_violated`). -/
theorem c88_entanglement_partial (cl : Closest) (Hs ps fwd rev : List (Matrix n n ℂ)) (init : Matrix n n ℂ) (hf : IsForward init ps fwd)
    (hr : IsReversed ps rev) (hps : ps ≠ []) (τ : ℝ) (T : Matrix n n ℂ) :
    ∃ g, entGrape Hs fwd rev (.array [τ]) T = .ok g ∧ g.length = 1 ∧ (∀ row ∈ g, row.length = Hs.length) ∧
      ∀ c H (P : ℝ → Matrix n n ℂ) (fwds : ℝ → List (Matrix n n ℂ)) (U : ℝ → Matrix n n ℂ), Hs[c]? = some H →
        Sweep init ps 0 P ((-Complex.I) • ((τ : ℂ) • (H * P 0))) fwds → (∀ x, (fwds x).getLast? = some (U x)) →
        ∃ v, cell g 0 c = some v ∧ HasDerivAt (fun x => entFid cl none T (U x) false) v 0 := by
  have h0 : 0 < ps.length := List.length_pos_iff.mpr hps
  obtain ⟨R, F, h1, h2, h3⟩ := final_set hf hr 0 h0
  have hP : ps[0]? = some ps[0] := List.getElem?_eq_getElem h0
  have hset : ps.set 0 ps[0] = ps := List.set_getElem_self h0
  have hlast : fwd.getLast? = some (R * ps[0] * F) := by
    refine h3 _ _ ?_
    rw [hset]
    exact hf
  have hA := forward_succ hf hP h2
  have hin : ∀ t < (Durations.array [τ]).len, ∀ c < Hs.length, entGrapeCell Hs fwd rev (.array [τ]) T (R * ps[0] * F) t c =
      .ok ((2 : ℝ) / (Fintype.card n : ℝ) / (Fintype.card n : ℝ) * τ *
        (star (R * ps[0] * F * Tᴴ).trace * (R * Hs.getD c 0 * (ps[0] * F) * Tᴴ).trace).im) := by
    intro t ht c hc
    obtain rfl : t = 0 := by simpa [Durations.len] using ht
    have hH : Hs[c]? = some Hs[c] := List.getElem?_eq_getElem hc
    simp only [entGrapeCell, at?, h1, hA, hH, List.getD_eq_getElem?_getD, Option.getD_some]
  have hg : entGrape Hs fwd rev (.array [τ]) T = fill 1 Hs.length (entGrapeCell Hs fwd rev (.array [τ]) T (R * ps[0] * F)) := by
    unfold entGrape
    rw [hlast]
    rfl
  refine ⟨_, hg.trans (fill_ok _ hin), by simp, by simp, ?_⟩
  intro c H P fwds U hH hs hU
  obtain ⟨hc, eH⟩ := List.getElem?_eq_some_iff.mp hH
  refine ⟨_, cell_range _ _ _ Nat.one_pos hc, ?_⟩
  have hP0 : ps[0] = P 0 := by
    have := hs.start
    rw [hP] at this
    exact Option.some.inj this
  have hU' : U = fun x => R * P x * F := by
    funext x
    have := h3 _ _ (hs.forward x)
    rw [hU x] at this
    exact Option.some.inj this
  rw [hU']
  have h4 := ((((hs.deriv.const_mul R).mul_const F).const_mul Tᴴ).trace)
  have h5 := (hasDerivAt_norm_sq h4).div_const (Fintype.card n : ℝ) |>.div_const (Fintype.card n : ℝ)
  have e : (fun x => entFid cl none T (R * P x * F) false) = fun x => ‖(Tᴴ * (R * P x * F)).trace‖ ^ 2 / Fintype.card n / Fintype.card n := by
    funext x; exact entFid_none cl T _ false
  rw [e]
  refine h5.congr_deriv ?_
  have e1 : (Tᴴ * (R * ((-Complex.I) • ((τ : ℂ) • (H * P 0))) * F)).trace = -Complex.I * (τ * (R * H * (P 0 * F) * Tᴴ).trace) := by
    rw [Matrix.trace_mul_comm]
    simp only [Matrix.mul_smul, Matrix.smul_mul, Matrix.trace_smul, smul_eq_mul, Matrix.mul_assoc]
  have e2 : (Tᴴ * (R * P 0 * F)).trace = (R * P 0 * F * Tᴴ).trace := Matrix.trace_mul_comm _ _
  rw [e1, e2, hP0, List.getD_eq_getElem?_getD, hH, Option.getD_some]
  generalize (R * P 0 * F * Tᴴ).trace = a
  generalize (R * H * (P 0 * F) * Tᴴ).trace = b
  have : (star a * (-Complex.I * (τ * b))).re = τ * (star a * b).im := by
    simp [Complex.mul_re, Complex.mul_im]; ring
  rw [this]
  ring

/-- **C88** (violated): with the documented list of durations `derivative_entanglement_fidelity` raises TypeError, and with an array of two
or more durations ValueError, whatever the other arguments of a simulation are. -/
theorem c88_violated (Hs ps fwd rev : List (Matrix n n ℂ)) (init : Matrix n n ℂ) (hf : IsForward init ps fwd) (hr : IsReversed ps rev)
    (hHs : Hs ≠ []) (hps : ps ≠ []) (l : List ℝ) (T : Matrix n n ℂ) :
    (l ≠ [] → entGrape Hs fwd rev (.list l) T = .error .typeError) ∧
    (2 ≤ l.length → entGrape Hs fwd rev (.array l) T = .error .valueError) := by
  have h0 : 0 < ps.length := List.length_pos_iff.mpr hps
  obtain ⟨R, F, h1, h2, h3⟩ := final_set hf hr 0 h0
  have hP : ps[0]? = some ps[0] := List.getElem?_eq_getElem h0
  have hset : ps.set 0 ps[0] = ps := List.set_getElem_self h0
  have hlast : fwd.getLast? = some (R * ps[0] * F) := by
    refine h3 _ _ ?_
    rw [hset]
    exact hf
  have hA := forward_succ hf hP h2
  obtain ⟨H, Hs, rfl⟩ := List.exists_cons_of_ne_nil hHs
  have hfill : ∀ (a b : Nat) (f : Nat → Nat → Except PyErr ℝ) (e : PyErr), f 0 0 = .error e → fill (a + 1) (b + 1) f = .error e := by
    intro a b f e h
    unfold fill
    have h1 : ((List.range (b + 1)).mapM fun c => f 0 c) = .error e := by
      rw [List.range_succ_eq_map, List.mapM_cons, h]
      rfl
    rw [List.range_succ_eq_map (n := a), List.mapM_cons, h1]
    rfl
  constructor
  · intro hl
    obtain ⟨x, l, rfl⟩ := List.exists_cons_of_ne_nil hl
    unfold entGrape
    rw [hlast]
    exact hfill _ _ _ _ rfl
  · intro hl
    obtain ⟨x, y, l, rfl⟩ : ∃ x y l', l = x :: y :: l' := by
      match l, hl with
      | x :: y :: l, _ => exact ⟨x, y, l, rfl⟩
    unfold entGrape
    rw [hlast]
    refine hfill _ _ _ _ ?_
    simp only [entGrapeCell, at?, zero_add, List.getElem?_cons_zero]
    rw [h1, hA]

/-! ### Examples -/

/-- Two steps, two controls: the hypotheses are met. -/
example : ∃ (fwds : ℝ → List (Matrix (Fin 2) (Fin 2) ℂ)), IsForward 1 [!![0, 1; 1, 0], 1] [1, !![0, 1; 1, 0], !![0, 1; 1, 0]] ∧
    Sweep 1 [!![0, 1; 1, 0], 1] 1 (fun x => 1 + (x : ℂ) • !![(0 : ℂ), 1; -1, 0]) !![0, 1; -1, 0] fwds := by
  refine ⟨fun x => [1, !![0, 1; 1, 0], (1 + (x : ℂ) • !![(0 : ℂ), 1; -1, 0]) * !![0, 1; 1, 0]], ?_, ?_⟩
  · refine ⟨rfl, rfl, fun i hi => ?_⟩
    match i, hi with
    | 0, _ => exact ⟨1, rfl, by simp⟩
    | 1, _ => exact ⟨_, rfl, by simp⟩
  · refine ⟨fun x => ⟨rfl, rfl, fun i hi => ?_⟩, by simp, fun i j => ?_⟩
    · match i, hi with
      | 0, _ => exact ⟨1, rfl, by simp⟩
      | 1, _ => exact ⟨_, rfl, by simp⟩
    · have h := ((hasDerivAt_id (0 : ℝ)).ofReal_comp.mul_const ((!![(0 : ℂ), 1; -1, 0]) i j)).const_add ((1 : Matrix (Fin 2) (Fin 2) ℂ) i j)
      refine (h.congr_deriv (by simp)).congr_of_eventuallyEq (Filter.Eventually.of_forall fun x => ?_)
      simp only [Matrix.add_apply, Matrix.smul_apply, smul_eq_mul]
      rfl

end
end Verif.Cost
