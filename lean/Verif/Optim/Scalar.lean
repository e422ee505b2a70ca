import Verif.Optim.Violations

/-!
# C64: the scalar objective and its gradient
-/

namespace Verif.Optim
open Verif Verif.Transfer

/-- Specification: the weight of cost value `i`: 1 without weights; a single weight counts for every cost value. -/
def weightAt : Option (List ℝ) → Nat → ℝ
  | none, _ => 1
  | some [x], _ => x
  | some l, i => l.getD i 0

/-- Specification: there is one weight for each of the `F` cost values (or a single one, or none). -/
def FitsWeights (w : Option (List ℝ)) (F : Nat) : Prop := ∀ l, w = some l → l.length = 1 ∨ l.length = F

theorem sum_getD (l : List ℝ) : l.sum = ((List.range l.length).map fun i => l.getD i 0).sum := by
  congr 1
  refine List.ext_getElem (by simp) fun i h1 h2 => ?_
  simp [List.getElem?_eq_getElem h1]

theorem weigh_sum {w : Option (List ℝ)} {v v' : List ℝ} (h : weigh w v = .ok v') :
    v'.sum = ((List.range v.length).map fun i => weightAt w i * v.getD i 0).sum := by
  unfold weigh at h
  split at h
  · cases h
    simp only [weightAt, one_mul]
    exact sum_getD v
  · next x =>
    cases h
    rw [sum_getD]
    simp only [List.length_map]
    congr 1
    refine List.map_congr_left fun i hi => ?_
    have hi : i < v.length := by simpa using hi
    simp [weightAt, hi, mul_comm]
  · next l hl =>
    split at h
    next hlen =>
      cases h
      rw [sum_getD]
      simp only [List.length_zipWith, hlen, min_self]
      congr 1
      refine List.map_congr_left fun i hi => ?_
      have hi : i < v.length := by simpa using hi
      have hw : weightAt (some l) i = l.getD i 0 := by
        match l, hl with
        | [], _ => rfl
        | [a], h => exact absurd rfl (h a)
        | a :: b :: l, _ => rfl
      rw [hw]
      simp [hi, hlen, mul_comm]
    next => cases h

/-- **C64** (objective): whatever the state and the vector, the scalar returned to the minimiser is the weighted sum of the
cost values the simulator returns for the pulse of that vector. -/
theorem c64_objective (cfg : Cfg) (st : St cfg.F cfg.C) (vec : Nat) (t s : ℝ) (st' : St cfg.F cfg.C)
    (h : scalarCost cfg st vec t = (.ok s, st')) :
    ∃ y v, unflatten cfg.T cfg.C (deref st.heap vec) = .ok y ∧ cfg.sim st.calls y = .ok v ∧
      s = ((List.range v.length).map fun i => weightAt cfg.weights i * v.getD i 0).sum := by
  unfold scalarCost at h
  split at h
  next => simp at h
  next a st1 hc =>
    simp only [Prod.mk.injEq, Except.ok.injEq] at h
    obtain ⟨rfl, rfl⟩ := h
    unfold costWrapper at hc
    split at hc
    · simp at hc
    · split at hc
      · simp at hc
      · next y hy =>
        split at hc
        · simp at hc
        · next v hv =>
          refine ⟨y, v, hy, hv, ?_⟩
          simp only at hc
          split at hc
          · simp at hc
          · next v' hv' =>
            simp only [Prod.mk.injEq, Except.ok.injEq] at hc
            obtain ⟨rfl, rfl⟩ := hc
            rw [← weigh_sum hv']
            congr 1
            have hset : ∀ (p : Prop) [inst : Decidable p] (a b : St cfg.F cfg.C), a.heap = st.heap ++ [v] → b.heap = st.heap ++ [v] →
                deref ((if p then a else b).heap.set st.heap.length v') st.heap.length = v' := by
              intro p _ a b ha hb
              split <;> simp [deref, ha, hb]
            refine hset _ (inst := _) _ _ ?_ ?_ <;> cases cfg.save <;> rfl

/-- Wrong numbers of weights are rejected. -/
theorem c64_rejects (w : List ℝ) (v : List ℝ) (h1 : w.length ≠ 1) (h2 : w.length ≠ v.length) :
    weigh (some w) v = .error .valueError := by
  match w, h1 with
  | [], _ => simp only [weigh]; rw [if_neg h2]
  | a :: b :: w, _ => simp only [weigh]; rw [if_neg h2]

theorem weighJac_get {w : Option (List ℝ)} {F : Nat} {J J' : List (List ℝ)} (hF : J.length = F) (hw : FitsWeights w F)
    (h : weighJac w J = .ok J') (k : Nat) :
    (J'.map fun row => row.getD k 0).sum = ((List.range F).map fun f => weightAt w f * (J.getD f []).getD k 0).sum := by
  subst hF
  have key : ∀ (l : List (List ℝ)), l.length = J.length →
      (∀ i, i < J.length → (l.getD i []).getD k 0 = weightAt w i * (J.getD i []).getD k 0) →
      (l.map fun row => row.getD k 0).sum = ((List.range J.length).map fun f => weightAt w f * (J.getD f []).getD k 0).sum := by
    intro l hl hi
    congr 1
    refine List.ext_getElem (by simp [hl]) fun i h1 h2 => ?_
    have h3 : i < J.length := by simpa using h2
    rw [List.getElem_map, List.getElem_map, List.getElem_range, ← hi i h3, List.getD_eq_getElem l _ (by simpa using h1)]
  have hmul : ∀ (row : List ℝ) (x : ℝ), (row.map (· * x)).getD k 0 = x * row.getD k 0 := by
    intro row x
    by_cases hk : k < row.length
    · simp [hk, mul_comm]
    · simp [List.getElem?_eq_none (Nat.not_lt.1 hk)]
  unfold weighJac at h
  split at h
  · cases h
    exact key _ rfl fun i hi => by simp [weightAt]
  · next x =>
    cases h
    refine key _ (by simp) fun i hi => ?_
    rw [List.getD_eq_getElem (List.map _ _) [] (by simpa using hi), List.getElem_map, hmul, List.getD_eq_getElem _ [] hi]
    rfl
  · next l row hl =>
    cases h
    have h1 : l.length = 1 := by rcases hw l rfl with h | h <;> simpa using h
    obtain ⟨x, rfl⟩ := List.length_eq_one_iff.1 h1
    exact absurd rfl (hl x)
  · next l hl hJ =>
    split at h
    next hlen =>
      cases h
      refine key _ (by simp [hlen]) fun i hi => ?_
      have hwt : weightAt (some l) i = l.getD i 0 := by
        match l, hl with
        | [], _ => rfl
        | [a], h => exact absurd rfl (h a)
        | a :: b :: l, _ => rfl
      rw [List.getD_eq_getElem (List.zipWith _ _ _) [] (by simp [hlen, hi]), List.getElem_zipWith, hmul, hwt, List.getD_eq_getElem J _ hi,
        List.getD_eq_getElem l _ (by omega)]
    next => cases h

theorem sum_range_list (n : Nat) (φ : Nat → ℝ) : ((List.range n).map φ).sum = ∑ i : Fin n, φ i := by
  rw [Fin.sum_univ_eq_sum_range]
  induction n with
  | zero => rfl
  | succ n ih => rw [List.range_succ, List.map_append, List.sum_append, ih, Finset.sum_range_succ]; simp

/-- **C64** (gradient): the gradient handed to the minimiser has one entry for each entry of the vector, namely the weighted sum
over the cost functions of the simulator's derivatives with respect to that time and control. -/
theorem c64_gradient (cfg : Cfg) (hw : FitsWeights cfg.weights cfg.F) (st st' : St cfg.F cfg.C) (v g : List ℝ)
    (h : scalarJac cfg st v = (.ok g, st')) :
    ∃ y J, unflatten cfg.T cfg.C v = .ok y ∧ cfg.jac st.calls y = .ok J ∧ g.length = v.length ∧
      (J.length = cfg.T → ∀ (t : Nat) (ht : t < J.length) (c : Fin cfg.C),
        g.getD (c * cfg.T + t) 0 = ∑ f : Fin cfg.F, weightAt cfg.weights f * J[t] f c) := by
  unfold scalarJac jacWrapper at h
  cases hy : unflatten cfg.T cfg.C v with
  | error e => simp [hy] at h
  | ok y =>
    simp only [hy] at h
    cases hJ : cfg.jac st.calls y with
    | error e => simp [hJ] at h
    | ok J =>
      simp only [hJ] at h
      cases hj : weighJac cfg.weights (flattenJac J) with
      | error e => simp [hj] at h
      | ok j =>
        simp only [hj, Prod.mk.injEq, Except.ok.injEq] at h
        obtain ⟨rfl, -⟩ := h
        refine ⟨y, J, rfl, hJ, by simp [sumRows, (unflatten_ok hy).1], fun hl t ht c => ?_⟩
        have hk := index_lt (C := cfg.C) c.2 (hl ▸ ht : t < cfg.T)
        have hlen : (flattenJac J).length = cfg.F := by simp [flattenJac]
        have := weighJac_get hlen hw hj (c * cfg.T + t)
        unfold sumRows
        rw [List.getD_eq_getElem _ _ (by simpa using hk), List.getElem_map, List.getElem_range, this, sum_range_list]
        refine Finset.sum_congr rfl fun f _ => ?_
        have := flattenJac_get J f c t ht
        rw [hl] at this
        rw [this]

/-- **C64** (consistency): for a simulator whose Jacobian consists of the derivatives of its costs, the gradient is the derivative
of the scalar objective with respect to each entry of the vector. -/
theorem c64_consistent (cfg : Cfg) (hw : FitsWeights cfg.weights cfg.F) (st st' : St cfg.F cfg.C) (v g : List ℝ) (y : Pulse ℝ cfg.C)
    (J : Grads ℝ cfg.F cfg.C) (cost : Pulse ℝ cfg.C → Fin cfg.F → ℝ) (hy : unflatten cfg.T cfg.C v = .ok y)
    (hJ : cfg.jac st.calls y = .ok J) (hT : J.length = cfg.T)
    (hd : ∀ (t : Nat) (ht : t < J.length) (c : Fin cfg.C) (f : Fin cfg.F), HasDerivAt (fun x => cost (Sim.shift y t c x) f) (J[t] f c) 0)
    (h : scalarJac cfg st v = (.ok g, st')) (k : Nat) (hk : k < v.length) :
    HasDerivAt (fun x => ∑ f : Fin cfg.F, weightAt cfg.weights f * ofVector cfg.T cost (v.set k x) f) (g.getD k 0) v[k] := by
  obtain ⟨y', J', h1, h2, h3, h4⟩ := c64_gradient cfg hw st st' v g h
  rw [hy] at h1; cases h1
  rw [hJ] at h2; cases h2
  obtain ⟨a, b, e⟩ := index_split (T := cfg.T) (C := cfg.C) (k := k) (by rw [← (unflatten_ok hy).1]; exact hk)
  have h5 := h4 hT (k % cfg.T) (by omega) ⟨k / cfg.T, a⟩
  simp only [e] at h5
  rw [h5]
  refine HasDerivAt.fun_sum fun f _ => ?_
  refine HasDerivAt.const_mul _ ?_
  have h6 := c59_jacobian_columns cost v y J hy hT hd k hk f
  have h7 := flattenJac_get J f ⟨k / cfg.T, a⟩ (k % cfg.T) (by omega)
  simp only [hT, e] at h7
  rwa [h7] at h6

theorem sum_map_getD (l : List ℝ) (row : List ℝ) (k : Nat) :
    ((l.map fun x => row.map (· * x)).map fun r => r.getD k 0).sum = l.sum * row.getD k 0 := by
  induction l with
  | nil => simp
  | cons x l ih =>
    rw [List.map_cons, List.map_cons, List.sum_cons, ih, List.sum_cons, add_mul]
    congr 1
    rcases lt_or_ge k row.length with h | h
    · rw [List.getD_eq_getElem _ _ (by simpa using h), List.getD_eq_getElem _ _ h, List.getElem_map, mul_comm]
    · rw [List.getD_eq_default _ _ (by simpa using h), List.getD_eq_default _ _ h, mul_zero]

/-- **C64** (weights of the wrong number): every evaluation of the costs raises ValueError.  The evaluation of the gradient does so too,
except for a single cost function, where it goes through with the sum of all weights. -/
theorem c64_mismatch (cfg : Cfg) (l : List ℝ) (hl : cfg.weights = some l) (hw : ¬ FitsWeights cfg.weights cfg.F) (st : St cfg.F cfg.C) :
    (∀ (vec : Nat) (t : ℝ) (y : Pulse ℝ cfg.C) (c : List ℝ), ¬ cfg.maxWall < t → unflatten cfg.T cfg.C (deref st.heap vec) = .ok y →
      cfg.sim st.calls y = .ok c → c.length = cfg.F → (scalarCost cfg st vec t).1 = .error (.py .valueError)) ∧
    ∀ (v : List ℝ) (y : Pulse ℝ cfg.C) (J : Grads ℝ cfg.F cfg.C), unflatten cfg.T cfg.C v = .ok y → cfg.jac st.calls y = .ok J →
      (cfg.F ≠ 1 → (scalarJac cfg st v).1 = .error .valueError) ∧
      (cfg.F = 1 → J.length = cfg.T → ∃ g, (scalarJac cfg st v).1 = .ok g ∧ ∀ (t : Nat) (ht : t < J.length) (c : Fin cfg.C)
        (f : Fin cfg.F), g.getD (c * cfg.T + t) 0 = l.sum * J[t] f c) := by
  obtain ⟨h1, h2⟩ : l.length ≠ 1 ∧ l.length ≠ cfg.F := by
    constructor <;> intro h <;> refine hw fun l' h' => ?_ <;> rw [hl] at h' <;> cases h'
    exacts [Or.inl h, Or.inr h]
  have hx : ∀ x, l ≠ [x] := by rintro x rfl; exact h1 rfl
  refine ⟨fun vec t y c ht hy hc hF => ?_, fun v y J hy hJ => ?_⟩
  · have e : weigh cfg.weights c = .error .valueError := by
      rw [hl]
      unfold weigh
      split
      · next h => cases h
      · next x h => cases h; exact absurd rfl (hx x)
      · next l' _ h => cases h; rw [if_neg (by omega)]
    simp [scalarCost, costWrapper, ht, hy, hc, e]
  · have hlen : (flattenJac J).length = cfg.F := by simp [flattenJac]
    constructor
    · intro hF
      have e : weighJac cfg.weights (flattenJac J) = .error .valueError := by
        rw [hl]
        unfold weighJac
        split
        · next h => cases h
        · next x h => cases h; exact absurd rfl (hx x)
        · next h => rw [h] at hlen; exact absurd hlen.symm hF
        · next h _ => cases h; rw [if_neg (by omega)]
      simp [scalarJac, jacWrapper, hy, hJ, e]
    · intro hF hT
      obtain ⟨row, hrow⟩ := List.length_eq_one_iff.1 (hlen.trans hF)
      have e : weighJac cfg.weights (flattenJac J) = .ok (l.map fun x => row.map (· * x)) := by
        rw [hl, hrow]
        unfold weighJac
        split
        · next h => cases h
        · next x h => cases h; exact absurd rfl (hx x)
        · next h1 h2 => cases h1; cases h2; rfl
        · next h' => exact absurd rfl (h' _)
      refine ⟨_, by simp only [scalarJac, jacWrapper, hy, hJ, e]; rfl, fun t ht c f => ?_⟩
      have hk := index_lt (C := cfg.C) c.2 (hT ▸ ht : t < cfg.T)
      unfold sumRows
      rw [List.getD_eq_getElem _ _ (by simpa using hk), List.getElem_map, List.getElem_range, sum_map_getD]
      have h3 := flattenJac_get J f c t ht
      have h4 : (f : Nat) = 0 := by omega
      rw [h4, hrow, hT] at h3
      simpa using congrArg (l.sum * ·) h3

/-! ## Example: two cost values, weights 2 and 5 -/

noncomputable abbrev pairCfg : Cfg :=
  { T := 1, C := 1, F := 2, weights := some [2, 5], save := false, useJac := true, scalar := true, maxWall := 10,
    sim := fun _ y => .ok [rowAt y 0 0, 3 * rowAt y 0 0], jac := fun _ _ => .ok [![fun _ => 1, fun _ => 3]] }

example : ∃ st', scalarCost pairCfg { prepared 2 1 with heap := [[7]] } 0 1 = (.ok (2 * 7 + 5 * 21), st') := by
  have h1 : ¬ (10 : ℝ) < 1 := by norm_num
  simp [scalarCost, costWrapper, pairCfg, deref, prepared, unflatten_one, weigh, rowAt, better, h1]
  norm_num

example : ∃ st', scalarJac pairCfg (prepared 2 1) [7] = (.ok [2 * 1 + 5 * 3], st') := by
  simp [scalarJac, jacWrapper, pairCfg, prepared, unflatten_one, weighJac, flattenJac, flattenT, sumRows, List.finRange_succ]
  norm_num

example : FitsWeights pairCfg.weights pairCfg.F := by
  intro l h
  simp at h
  subst h
  simp

/-- `c64_mismatch` applies: one cost value with two weights. -/
example : ∃ g st', scalarJac (identityCfg (some [2, 5])) (prepared 1 1) [7] = (.ok g, st') ∧ g.getD 0 0 = 7 ∧
    (scalarCost (identityCfg (some [2, 5])) { prepared 1 1 with heap := [[7]] } 0 1).1 = .error (.py .valueError) := by
  have hw : ¬ FitsWeights (identityCfg (some [2, 5])).weights (identityCfg (some [2, 5])).F := by
    intro h
    have := h [2, 5] rfl
    simp at this
  have h1 := (c64_mismatch (identityCfg (some [2, 5])) [2, 5] rfl hw { prepared 1 1 with heap := [[7]] }).1 0 1 [fun _ => 7] [7]
    (by norm_num) (unflatten_one 7) rfl rfl
  obtain ⟨g, h2, h3⟩ := ((c64_mismatch (identityCfg (some [2, 5])) [2, 5] rfl hw (prepared 1 1)).2 [7] [fun _ => 7] [fun _ _ => 1]
    (unflatten_one 7) rfl).2 rfl rfl
  refine ⟨g, _, Prod.ext h2 rfl, ?_, h1⟩
  have := h3 0 (by simp) 0 0
  norm_num at this
  simpa using this

end Verif.Optim
