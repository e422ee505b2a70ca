import Mathlib.Tactic.LinearCombination
import Verif.Transfer.Lemmas

/-! # Pairing of gradients and pulses, and the adjointness lemmas of the building blocks -/

namespace Verif.Transfer
open Verif

section
variable {K : Type} [Field K] {c f : Nat}

/-- Specification: the derivative of cost `φ` along the pulse `x` when the derivatives with respect to the
entries of `x` are `g`, i.e. `∑ᵢₖ g[i, φ, k] * x[i, k]`. -/
def pairing (g : Grads K f c) (x : Pulse K c) (φ : Fin f) : K :=
  (List.zipWith (fun gr xr => ∑ k, gr φ k * xr k) g x).sum

@[simp] theorem pairing_nil_left (x : Pulse K c) (φ : Fin f) : pairing [] x φ = 0 := by simp [pairing]
@[simp] theorem pairing_nil_right (g : Grads K f c) (φ : Fin f) : pairing g [] φ = 0 := by
  simp [pairing]
@[simp] theorem pairing_cons (gr : Fin f → Fin c → K) (g : Grads K f c) (xr : Row K c) (x : Pulse K c)
    (φ : Fin f) : pairing (gr :: g) (xr :: x) φ = ∑ k, gr φ k * xr k + pairing g x φ := by
  simp [pairing]

theorem pairing_append (g₁ g₂ : Grads K f c) (x₁ x₂ : Pulse K c) (h : g₁.length = x₁.length)
    (φ : Fin f) : pairing (g₁ ++ g₂) (x₁ ++ x₂) φ = pairing g₁ x₁ φ + pairing g₂ x₂ φ := by
  induction g₁ generalizing x₁ with
  | nil =>
    have : x₁ = [] := by simpa using h.symm
    subst this; simp
  | cons a g₁ ih =>
    cases x₁ with
    | nil => simp at h
    | cons b x₁ =>
      simp only [List.cons_append, pairing_cons, ih x₁ (by simpa using h)]
      ring

theorem pairing_replicate_zero (g : Grads K f c) (n : Nat) (φ : Fin f) :
    pairing g (List.replicate n 0) φ = 0 := by
  induction g generalizing n with
  | nil => simp
  | cons a g ih =>
    cases n with
    | zero => simp
    | succ n => simp [List.replicate_succ, ih]

theorem pairing_replicate (g : Grads K f c) (r : Row K c) (φ : Fin f) :
    pairing g (List.replicate g.length r) φ = ∑ k, g.sum φ k * r k := by
  induction g with
  | nil => simp
  | cons a g ih =>
    simp only [List.length_cons, List.replicate_succ, pairing_cons, ih, List.sum_cons, Pi.add_apply,
      add_mul, Finset.sum_add_distrib]

/-- The pairing as a double sum over indices. -/
theorem pairing_eq_sum (g : Grads K f c) (x : Pulse K c) (φ : Fin f) (n : Nat)
    (h : g.length ≤ n ∨ x.length ≤ n) :
    pairing g x φ = ∑ i ∈ Finset.range n, ∑ k, rowAt g i φ k * rowAt x i k := by
  induction n generalizing g x with
  | zero =>
    rcases h with h | h
    · have : g = [] := by simpa using h
      subst this; simp
    · have : x = [] := by simpa using h
      subst this; simp
  | succ n ih =>
    rw [Finset.sum_range_succ']
    cases g with
    | nil => simp [rowAt]
    | cons a g =>
      cases x with
      | nil => simp [rowAt]
      | cons b x =>
        rw [pairing_cons, ih g x (by simpa using h)]
        simp only [rowAt, List.getD_cons_succ, List.getD_cons_zero]
        ring

/-- Oversampling without padding: the block sums are the adjoint of the repetition. -/
theorem pairing_npRepeat (n : Nat) (g : Grads K f c) (y : Pulse K c) (φ : Fin f)
    (h : g.length = y.length * n) :
    pairing g (npRepeat n y) φ
      = pairing ((List.range y.length).map fun i => ((g.drop (i * n)).take n).sum) y φ := by
  induction y generalizing g with
  | nil => simp
  | cons r y ih =>
    have hlen : (g.take n).length = n := by
      rw [List.length_take, h, List.length_cons, Nat.add_mul]; omega
    have hdrop : (g.drop n).length = y.length * n := by
      rw [List.length_drop, h, List.length_cons, Nat.add_mul]; omega
    rw [npRepeat_cons, List.length_cons, List.range_succ_eq_map, List.map_cons, pairing_cons]
    conv_lhs => rw [← List.take_append_drop n g]
    rw [pairing_append _ _ _ _ (by simp [hlen]), ih _ hdrop]
    congr 1
    · have := pairing_replicate (g.take n) r φ
      rw [hlen] at this
      rw [this]; simp
    · congr 1
      rw [List.map_map]
      apply List.map_congr_left
      intro i _
      simp only [Function.comp_apply, List.drop_drop]
      congr 3
      rw [Nat.succ_eq_add_one, Nat.add_mul]; omega

/-- `OversamplingTF`: gradient and call are adjoint. -/
theorem oversampling_adjoint (b : Base K) (y x : Pulse K c) (g h : Grads K f c) (φ : Fin f)
    (hy : y.length = b.numY) (hx : oversamplingApply b y = .ok x) (hh : oversamplingAdj b g = .ok h) :
    pairing g x φ = pairing h y φ := by
  unfold oversamplingApply at hx
  unfold oversamplingAdj at hh
  cases hp : b.numPadding with
  | error e => rw [hp] at hx; simp [bind, Except.bind] at hx
  | ok p =>
    obtain ⟨ps, pe⟩ := p
    rw [hp] at hx hh
    simp only [bind, Except.bind, pure, Except.pure, Except.ok.injEq] at hx hh
    subst hx
    by_cases hlen : g.length = b.numX
    · rw [if_pos hlen] at hh
      set cr := (if 0 < pe then sliceNeg ps pe g else g.drop ps) with hcr
      by_cases hcl : cr.length = b.numY * b.oversampling
      · rw [if_pos hcl] at hh
        simp only [Except.ok.injEq] at hh
        subst hh
        have hcl' : cr.length = y.length * b.oversampling := by rw [hy]; exact hcl
        rw [← hy, ← pairing_npRepeat b.oversampling cr y φ hcl']
        by_cases hz : y.length * b.oversampling = 0
        · have h0 : cr = [] := by
            apply List.eq_nil_of_length_eq_zero; rw [hcl', hz]
          have h1 : npRepeat b.oversampling y = [] := by
            apply List.eq_nil_of_length_eq_zero; simp [Nat.mul_comm] at hz ⊢; tauto
          rw [h0, h1]
          simp only [List.append_nil, ← List.replicate_add, pairing_replicate_zero, pairing_nil_left]
        · have hcrlen : cr.length = g.length - pe - ps := by
            rw [hcr]; split
            · simp [sliceNeg]
            · simp; omega
          have hge : ps + y.length * b.oversampling + pe = g.length := by
            rw [hcrlen] at hcl'; omega
          have hsplit : g = g.take ps ++ cr ++ g.drop (ps + y.length * b.oversampling) := by
            have h1 : cr = (g.drop ps).take (y.length * b.oversampling) := by
              rw [hcr]; split
              · rw [sliceNeg, List.drop_take]; congr 1; omega
              · rw [List.take_of_length_le]; simp; omega
            rw [h1, ← List.drop_drop, List.append_assoc, List.take_append_drop, List.take_append_drop]
          conv_lhs => rw [hsplit]
          rw [pairing_append _ _ _ _ (by simp [hcl', Nat.mul_comm]; omega),
            pairing_append _ _ _ _ (by simp; omega), pairing_replicate_zero, pairing_replicate_zero]
          simp
      · rw [if_neg hcl] at hh; simp at hh
    · rw [if_neg hlen] at hh; simp at hh

theorem rowAt_map_range {α : Type} [Zero α] (n i : Nat) (F : Nat → α) (hi : i < n) :
    rowAt ((List.range n).map F) i = F i := by
  simp [rowAt, hi]

/-- Matrix transfer functions: `einsum('ijk,ifk->jfk')` is the adjoint of `einsum('ijk,jk->ik')`. -/
theorem tensor_adjoint (T : Tensor K c) (y x : Pulse K c) (g h : Grads K f c) (φ : Fin f) (hy : y.length = T.ny)
    (hg : g.length = T.nx) (hx : T.apply y = .ok x) (hh : T.applyAdj g = .ok h) : pairing g x φ = pairing h y φ := by
  unfold Tensor.apply at hx
  unfold Tensor.applyAdj at hh
  rw [if_pos hy] at hx
  · rw [if_pos hg] at hh
    · simp only [Except.ok.injEq] at hx hh
      rw [pairing_eq_sum g x φ T.nx (Or.inl hg.le), pairing_eq_sum h y φ T.ny (Or.inr hy.le)]
      have e1 : ∀ i ∈ Finset.range T.nx, ∑ k, rowAt g i φ k * rowAt x i k
          = ∑ j ∈ Finset.range T.ny, ∑ k, T.val i j k * rowAt g i φ k * rowAt y j k := by
        intro i hi
        rw [← hx, rowAt_map_range _ _ _ (Finset.mem_range.mp hi), Finset.sum_comm]
        apply Finset.sum_congr rfl; intro k _
        rw [Finset.mul_sum]
        apply Finset.sum_congr rfl; intro j _
        ring
      have e2 : ∀ j ∈ Finset.range T.ny, ∑ k, rowAt h j φ k * rowAt y j k
          = ∑ i ∈ Finset.range T.nx, ∑ k, T.val i j k * rowAt g i φ k * rowAt y j k := by
        intro j hj
        rw [← hh, rowAt_map_range _ _ _ (Finset.mem_range.mp hj), Finset.sum_comm]
        apply Finset.sum_congr rfl; intro k _
        rw [Finset.sum_mul]
      rw [Finset.sum_congr rfl e1, Finset.sum_congr rfl e2, Finset.sum_comm]

theorem pairing_addOffset (o : Option K) (g : Grads K f c) (x x' : Pulse K c)
    (h : x.length = x'.length) (φ : Fin f) :
    pairing g (TF.addOffset o x) φ - pairing g (TF.addOffset o x') φ
      = pairing g x φ - pairing g x' φ := by
  cases o with
  | none => rfl
  | some o =>
    simp only [TF.addOffset]
    induction x generalizing x' g with
    | nil =>
      have : x' = [] := by simpa using h.symm
      subst this; simp
    | cons a x ih =>
      cases x' with
      | nil => simp at h
      | cons a' x' =>
        cases g with
        | nil => simp
        | cons b g =>
          have := ih g x' (by simpa using h)
          simp only [List.map_cons, pairing_cons, mul_add, Finset.sum_add_distrib]
          linear_combination this

theorem pairing_hcat {c₁ c₂ : Nat} (g : Grads K f (c₁ + c₂)) (x₁ : Pulse K c₁) (x₂ : Pulse K c₂)
    (x : Pulse K (c₁ + c₂)) (hx : TF.hcat x₁ x₂ = .ok x) (φ : Fin f) :
    pairing g x φ = pairing (TF.leftGrads g) x₁ φ + pairing (TF.rightGrads g) x₂ φ := by
  unfold TF.hcat at hx
  split at hx
  · rename_i hl
    simp only [Except.ok.injEq] at hx
    subst hx
    induction x₁ generalizing x₂ g with
    | nil =>
      have : x₂ = [] := by simpa using hl.symm
      subst this; simp
    | cons a x₁ ih =>
      cases x₂ with
      | nil => simp at hl
      | cons b x₂ =>
        cases g with
        | nil => simp [TF.leftGrads, TF.rightGrads]
        | cons q g =>
          have := ih g x₂ (by simpa using hl)
          simp only [TF.leftGrads, TF.rightGrads, List.map_cons, List.zipWith_cons_cons, pairing_cons]
            at this ⊢
          rw [this, Fin.sum_univ_add]
          simp only [Fin.append_left, Fin.append_right]
          ring
  · simp at hx

theorem pairing_hcatG {c₁ c₂ : Nat} (h₁ : Grads K f c₁) (h₂ : Grads K f c₂)
    (h : Grads K f (c₁ + c₂)) (hh : TF.hcatG h₁ h₂ = .ok h) (y : Pulse K (c₁ + c₂)) (φ : Fin f) :
    pairing h y φ = pairing h₁ (TF.leftCols y) φ + pairing h₂ (TF.rightCols y) φ := by
  unfold TF.hcatG at hh
  split at hh
  · rename_i hl
    simp only [Except.ok.injEq] at hh
    subst hh
    induction h₁ generalizing h₂ y with
    | nil =>
      have : h₂ = [] := by simpa using hl.symm
      subst this; simp
    | cons a h₁ ih =>
      cases h₂ with
      | nil => simp at hl
      | cons b h₂ =>
        cases y with
        | nil => simp [TF.leftCols, TF.rightCols]
        | cons q y =>
          have := ih h₂ y (by simpa using hl)
          simp only [TF.leftCols, TF.rightCols, List.map_cons, List.zipWith_cons_cons, pairing_cons]
            at this ⊢
          rw [this, Fin.sum_univ_add]
          simp only [Fin.append_left, Fin.append_right]
          ring
  · simp at hh

end
end Verif.Transfer
