import Verif.Solver.Unital
import Verif.Cost.Chain

/-!
# C128: pulses of an open system compose

`LindbladSolver` (solver_algorithms.py:1778-2105), the model is in `Solver/Lindblad.lean`.
-/

namespace Verif.Solver
open Verif Verif.Operator Matrix
open scoped Kronecker

section
variable {n : Type} [Fintype n] [DecidableEq n]

/-! ## Specification -/

/-- What happens during one time step: drift Hamiltonian, duration, control amplitudes, transferred parameters. -/
structure OpenStep (n : Type) where
  H : Matrix n n ℂ
  τ : ℝ
  u : List ℝ
  x : List ℝ

/-- The forward propagators of the solver for a list of steps. -/
noncomputable def openRun (p : LPar n) (S : List (OpenStep n)) : Except PyErr (List (Sup n)) :=
  LPar.fwd { p with drift := S.map OpenStep.H } (S.map OpenStep.τ) (S.map OpenStep.u) (S.map OpenStep.x)

/-- Dissipation by Lindblad operators whose prefactors, if given, are computed for each time step from the amplitudes and
parameters of this step. -/
def LPar.Local (p : LPar n) (Ls : List (Matrix n n ℂ)) : Prop :=
  p.diss.supOp = none ∧ p.diss.lindblad = some Ls ∧ Ls ≠ [] ∧
    ∀ f, p.diss.prefactor = some f → ∃ φ : List ℝ → List ℝ → List ℝ,
      (∀ u x, f u x = List.zipWith φ u x) ∧ ∀ r y, (φ r y).length = Ls.length

/-! ## Steps -/

/-- The generator of one step. -/
noncomputable def stepGen (p : LPar n) (Ls : List (Matrix n n ℂ)) (s : OpenStep n) : Sup n :=
  supGen ((-Complex.I) • hamiltonian s.H p.ctrl s.u) (wDiss ((weightsAt p Ls [s.u] [s.x] 0).zip Ls))

noncomputable def stepProp (p : LPar n) (Ls : List (Matrix n n ℂ)) (s : OpenStep n) : Sup n :=
  NormedSpace.exp ((s.τ : ℂ) • stepGen p Ls s)

omit [Fintype n] [DecidableEq n] in
theorem weightsAt_local {p : LPar n} {Ls : List (Matrix n n ℂ)} (h : p.Local Ls) (S : List (OpenStep n)) (d : List (Matrix n n ℂ))
    (t : Nat) (ht : t < S.length) :
    weightsAt { p with drift := d } Ls (S.map OpenStep.u) (S.map OpenStep.x) t = weightsAt p Ls [S[t].u] [S[t].x] 0 := by
  unfold weightsAt
  cases hp : p.diss.prefactor with
  | none => rfl
  | some f =>
    obtain ⟨φ, h1, -⟩ := h.2.2.2 f hp
    simp [h1, List.getD_eq_getElem?_getD, ht]

omit [Fintype n] [DecidableEq n] in
theorem Local.lindblads {p : LPar n} {Ls : List (Matrix n n ℂ)} (h : p.Local Ls) (S : List (OpenStep n)) (d : List (Matrix n n ℂ)) :
    LPar.Lindblads { p with drift := d } Ls (S.map OpenStep.τ) (S.map OpenStep.u) (S.map OpenStep.x) := by
  refine ⟨h.1, h.2.1, h.2.2.1, fun f hf => ?_⟩
  obtain ⟨φ, h1, h2⟩ := h.2.2.2 f hf
  refine ⟨by simp [h1], fun row hrow => ?_⟩
  rw [h1] at hrow
  obtain ⟨i, hi, rfl⟩ := List.getElem_of_mem hrow
  rw [List.getElem_zipWith]
  exact h2 _ _

/-- The forward propagators are the products of the propagators of the steps. -/
theorem openRun_ok (p : LPar n) {Ls : List (Matrix n n ℂ)} (h : p.Local Ls) (hm : p.method = .frechet) (hE : p.L.ExpmOk)
    (S : List (OpenStep n)) (hS : S ≠ []) (hrow : ∀ s ∈ S, s.u.length = p.ctrl.length) :
    ∃ f, openRun p S = .ok f ∧ IsForward p.init (S.map (stepProp p Ls)) f := by
  set q : LPar n := { p with drift := S.map OpenStep.H } with hq
  have hL := Local.lindblads h S (S.map OpenStep.H)
  have hgl : (schroedGens q.drift q.ctrl (S.map OpenStep.u)).length = S.length := by rw [schroedGens_length]; simp [hq]
  have hgne : schroedGens q.drift q.ctrl (S.map OpenStep.u) ≠ [] := by
    intro h
    rw [h] at hgl
    exact hS (List.length_eq_zero_iff.mp hgl.symm)
  have hg : q.gens (S.map OpenStep.τ) (S.map OpenStep.u) (S.map OpenStep.x) = .ok (S.map (stepGen p Ls)) := by
    unfold LPar.gens lindGens
    rw [calcDiss_lindblad q Ls _ _ _ hL]
    simp only [bind, Except.bind]
    rw [if_neg hgne, if_neg (by simp [hgl])]
    congr 1
    refine List.ext_getElem (by simp [hgl]) fun t h1 h2 => ?_
    have ht : t < S.length := by simpa using h2
    have e := schroedGens_getElem q.drift q.ctrl (S.map OpenStep.u) t S[t].H S[t].u (by simp [hq, ht]) (by simp [ht])
      (hrow _ (List.getElem_mem _))
    rw [List.getElem?_eq_getElem (by omega)] at e
    simp only [Option.some.injEq] at e
    simp only [List.getElem_zipWith, List.getElem_map, List.getElem_range, e, stepGen]
    rw [weightsAt_local h S _ t ht]
  obtain ⟨ps, f, -, h2, h3, h4⟩ := q.run_ok (by rw [show q.method = p.method from rfl, hm]; simp) _ _ _ _ hg (by simp)
  refine ⟨f, h2, ?_⟩
  have : ps = S.map (stepProp p Ls) := by
    rw [h3]
    refine List.ext_getElem (by simp) fun t h1 h2 => ?_
    have ht : t < S.length := by simpa using h2
    rw [List.getElem_map, propOf_base q hm hE]
    simp [List.getD_eq_getElem?_getD, ht, stepProp]
  rw [← this]
  exact h4

omit [DecidableEq n] in
theorem isForward_append {init F : Sup n} {ps₁ ps₂ f₁ f₂ f : List (Sup n)} (h₁ : IsForward init ps₁ f₁) (hF : f₁.getLast? = some F)
    (h₂ : IsForward F ps₂ f₂) (h : IsForward init (ps₁ ++ ps₂) f) : f = f₁ ++ f₂.tail := by
  have hF' : F = ps₁.foldl (fun F P => P * F) init := by
    have := isForward_unique h₁ ps₁.length le_rfl
    rw [List.take_length, ← Nat.add_sub_cancel (n := ps₁.length) (m := 1), ← h₁.1, ← List.getLast?_eq_getElem?, hF] at this
    simpa using this
  refine List.ext_getElem? fun i => ?_
  have e := h.1
  have e₁ := h₁.1
  have e₂ := h₂.1
  rw [List.length_append] at e
  by_cases hi : i ≤ ps₁.length
  · rw [List.getElem?_append_left (by omega), isForward_unique h i (by simp; omega), isForward_unique h₁ i hi,
      List.take_append_of_le_length hi]
  · by_cases hj : i ≤ ps₁.length + ps₂.length
    · rw [List.getElem?_append_right (by omega), isForward_unique h i (by simp; omega), List.getElem?_tail,
        isForward_unique h₂ _ (by omega), List.take_append, List.take_of_length_le (by omega), List.foldl_append, ← hF']
      congr 4
      omega
    · rw [List.getElem?_eq_none (by omega), List.getElem?_eq_none (by simp; omega)]

theorem foldl_replicate (Q X : Sup n) (k : Nat) : (List.replicate k Q).foldl (fun F P => P * F) X = Q ^ k * X := by
  induction k generalizing X with
  | zero => simp
  | succ k ih => rw [List.replicate_succ, List.foldl_cons, ih, pow_succ, Matrix.mul_assoc]

theorem foldl_flatMap_replicate {α : Type} (k : Nat) (P Q : α → Sup n) (hPQ : ∀ s, Q s ^ k = P s) (l : List α) (X : Sup n) :
    (l.flatMap fun s => List.replicate k (Q s)).foldl (fun F P => P * F) X = (l.map P).foldl (fun F P => P * F) X := by
  induction l generalizing X with
  | nil => rfl
  | cons s l ih => rw [List.flatMap_cons, List.foldl_append, foldl_replicate, ih, hPQ, List.map_cons, List.foldl_cons]

theorem take_flatMap_replicate {α β : Type} (k : Nat) (Q : α → β) (l : List α) (i : Nat) :
    (l.flatMap fun s => List.replicate k (Q s)).take (k * i) = (l.take i).flatMap fun s => List.replicate k (Q s) := by
  induction l generalizing i with
  | nil => simp
  | cons s l ih =>
    cases i with
    | zero => simp
    | succ i =>
      rw [List.flatMap_cons, List.take_succ_cons, List.flatMap_cons, List.take_append, List.take_of_length_le (by simp; nlinarith),
        List.length_replicate, ← ih i]
      congr 2
      rw [Nat.mul_succ, Nat.add_sub_cancel]

theorem stepProp_parts (p : LPar n) (Ls : List (Matrix n n ℂ)) (s : OpenStep n) (a b : ℝ) :
    stepProp p Ls { s with τ := b } * stepProp p Ls { s with τ := a } = stepProp p Ls { s with τ := a + b } := by
  unfold stepProp
  rw [← Matrix.exp_add_of_commute]
  · congr 1
    show (b : ℂ) • stepGen p Ls s + (a : ℂ) • stepGen p Ls s = ((a + b : ℝ) : ℂ) • stepGen p Ls s
    rw [← add_smul, Complex.ofReal_add, add_comm (b : ℂ)]
  · exact ((Commute.refl (stepGen p Ls s)).smul_left _).smul_right _

theorem stepProp_pow (p : LPar n) (Ls : List (Matrix n n ℂ)) (s : OpenStep n) (k : Nat) (hk : 0 < k) :
    stepProp p Ls { s with τ := s.τ / k } ^ k = stepProp p Ls s := by
  unfold stepProp
  rw [← Matrix.exp_nsmul]
  congr 1
  rw [show stepGen p Ls { s with τ := s.τ / k } = stepGen p Ls s from rfl, ← Nat.cast_smul_eq_nsmul ℂ, smul_smul]
  congr 1
  have : (k : ℂ) ≠ 0 := by exact_mod_cast hk.ne'
  push_cast
  field_simp

/-! ## The property -/

/-- **C128** Two pulses of an open system played after each other: the forward propagators are those of the first pulse followed by
those of the second pulse which starts where the first one ended; together the product. -/
theorem c128_concat (p : LPar n) (Ls : List (Matrix n n ℂ)) (h : p.Local Ls) (hm : p.method = .frechet) (hE : p.L.ExpmOk)
    (S₁ S₂ : List (OpenStep n)) (h₁ : S₁ ≠ []) (h₂ : S₂ ≠ []) (hrow : ∀ s ∈ S₁ ++ S₂, s.u.length = p.ctrl.length) :
    ∃ f₁ F f₂, openRun p S₁ = .ok f₁ ∧ f₁.getLast? = some F ∧ openRun { p with init := F } S₂ = .ok f₂ ∧
      openRun p (S₁ ++ S₂) = .ok (f₁ ++ f₂.tail) := by
  obtain ⟨f₁, a1, a2⟩ := openRun_ok p h hm hE S₁ h₁ fun s hs => hrow s (by simp [hs])
  obtain ⟨F, hF⟩ : ∃ F, f₁.getLast? = some F := by
    rw [List.getLast?_eq_getElem?, a2.1, Nat.add_sub_cancel]
    exact ⟨_, isForward_unique a2 _ le_rfl⟩
  obtain ⟨f₂, b1, b2⟩ := openRun_ok { p with init := F } (Ls := Ls) h hm hE S₂ h₂ fun s hs => hrow s (by simp [hs])
  obtain ⟨f, c1, c2⟩ := openRun_ok p h hm hE (S₁ ++ S₂) (by simp [h₁]) hrow
  rw [List.map_append] at c2
  exact ⟨f₁, F, f₂, a1, hF, b1, by rw [c1, isForward_append a2 hF b2 c2]⟩

theorem c128_product (p : LPar n) (Ls : List (Matrix n n ℂ)) (h : p.Local Ls) (hm : p.method = .frechet) (hE : p.L.ExpmOk)
    (hi : p.init = 1) (S₁ S₂ : List (OpenStep n)) (h₁ : S₁ ≠ []) (h₂ : S₂ ≠ [])
    (hrow : ∀ s ∈ S₁ ++ S₂, s.u.length = p.ctrl.length) :
    ∃ f₁ f₂ f E₁ E₂, openRun p S₁ = .ok f₁ ∧ openRun p S₂ = .ok f₂ ∧ openRun p (S₁ ++ S₂) = .ok f ∧
      f₁.getLast? = some E₁ ∧ f₂.getLast? = some E₂ ∧ f.getLast? = some (E₂ * E₁) := by
  obtain ⟨f₁, a1, a2⟩ := openRun_ok p h hm hE S₁ h₁ fun s hs => hrow s (by simp [hs])
  obtain ⟨f₂, b1, b2⟩ := openRun_ok p h hm hE S₂ h₂ fun s hs => hrow s (by simp [hs])
  obtain ⟨f, c1, c2⟩ := openRun_ok p h hm hE (S₁ ++ S₂) (by simp [h₁]) hrow
  have last : ∀ {ps f : List (Sup n)}, IsForward p.init ps f → f.getLast? = some (ps.foldl (fun F P => P * F) 1) := by
    intro ps f hf
    rw [List.getLast?_eq_getElem?, hf.1, Nat.add_sub_cancel, isForward_unique hf _ le_rfl, List.take_length, hi]
  refine ⟨f₁, f₂, f, _, _, a1, b1, c1, last a2, last b2, ?_⟩
  rw [last c2, List.map_append, List.foldl_append, Cost.foldl_prod]

/-- **C128** Cutting every step into `k` equal parts changes nothing at the ends of the steps; this is what oversampling does to a
pulse. -/
theorem c128_refine (p : LPar n) (Ls : List (Matrix n n ℂ)) (h : p.Local Ls) (hm : p.method = .frechet) (hE : p.L.ExpmOk)
    (S : List (OpenStep n)) (hS : S ≠ []) (hrow : ∀ s ∈ S, s.u.length = p.ctrl.length) (k : Nat) (hk : 0 < k) :
    ∃ f f', openRun p S = .ok f ∧
      openRun p (S.flatMap fun s => List.replicate k { s with τ := s.τ / k }) = .ok f' ∧ f.length = S.length + 1 ∧
      f'.length = k * S.length + 1 ∧ ∀ i ≤ S.length, f'[k * i]? = f[i]? := by
  obtain ⟨f, a1, a2⟩ := openRun_ok p h hm hE S hS hrow
  have hlen : (S.flatMap fun s => List.replicate k { s with τ := s.τ / k }).length = k * S.length := by
    rw [List.length_flatMap]
    simp [mul_comm]
  obtain ⟨f', b1, b2⟩ := openRun_ok p h hm hE (S.flatMap fun s => List.replicate k { s with τ := s.τ / k })
    (by
      intro h0
      rw [h0] at hlen
      have := List.length_pos_iff.2 hS
      have := Nat.mul_pos hk this
      rw [List.length_nil] at hlen
      omega)
    (by
      intro s hs
      obtain ⟨r, hr, hs⟩ := List.mem_flatMap.mp hs
      rw [List.eq_of_mem_replicate hs]
      exact hrow r hr)
  have hmap : (S.flatMap fun s => List.replicate k { s with τ := s.τ / k }).map (stepProp p Ls) =
      S.flatMap fun s => List.replicate k (stepProp p Ls { s with τ := s.τ / k }) := by
    rw [List.map_flatMap]
    simp
  have e1 := a2.1
  have e2 := b2.1
  rw [List.length_map] at e1 e2
  refine ⟨f, f', a1, b1, e1, by rw [e2, hlen], fun i hi => ?_⟩
  rw [isForward_unique a2 i (by simpa using hi), isForward_unique b2 (k * i) (by
    rw [List.length_map, hlen]
    exact Nat.mul_le_mul_left k hi), hmap, take_flatMap_replicate,
    foldl_flatMap_replicate k (stepProp p Ls) _ (fun s => stepProp_pow p Ls s k hk), List.map_take]

/-- **C128** A step cut in two at any time; with a part of length zero: a step without duration has no effect. -/
theorem c128_split (p : LPar n) (Ls : List (Matrix n n ℂ)) (h : p.Local Ls) (hm : p.method = .frechet) (hE : p.L.ExpmOk)
    (S₁ S₂ : List (OpenStep n)) (s : OpenStep n) (a b : ℝ) (hab : a + b = s.τ)
    (hrow : ∀ r ∈ S₁ ++ s :: S₂, r.u.length = p.ctrl.length) :
    ∃ f f', openRun p (S₁ ++ s :: S₂) = .ok f ∧ openRun p (S₁ ++ { s with τ := a } :: { s with τ := b } :: S₂) = .ok f' ∧
      f.length = S₁.length + 1 + S₂.length + 1 ∧ f'.length = S₁.length + 2 + S₂.length + 1 ∧
      (∀ i ≤ S₁.length, f'[i]? = f[i]?) ∧ ∀ i, S₁.length < i → f'[i + 1]? = f[i]? := by
  obtain ⟨f, a1, a2⟩ := openRun_ok p h hm hE (S₁ ++ s :: S₂) (by simp) hrow
  obtain ⟨f', b1, b2⟩ := openRun_ok p h hm hE (S₁ ++ { s with τ := a } :: { s with τ := b } :: S₂) (by simp) (by
    intro r hr
    simp only [List.mem_append, List.mem_cons] at hr
    rcases hr with hr | rfl | rfl | hr
    · exact hrow r (by simp [hr])
    · exact hrow s (by simp)
    · exact hrow s (by simp)
    · exact hrow r (by simp [hr]))
  have e1 := a2.1
  have e2 := b2.1
  simp only [List.length_map, List.length_append, List.length_cons] at e1 e2
  refine ⟨f, f', a1, b1, by omega, by omega, fun i hi => ?_, fun i hi => ?_⟩
  · rw [isForward_unique a2 i (by simp; omega), isForward_unique b2 i (by simp; omega), List.map_append, List.map_append,
      List.take_append_of_le_length (by simpa using hi), List.take_append_of_le_length (by simpa using hi)]
  · by_cases hj : i ≤ S₁.length + 1 + S₂.length
    · obtain ⟨j, rfl⟩ := Nat.exists_eq_add_of_le (show S₁.length + 1 ≤ i by omega)
      rw [isForward_unique a2 _ (by simp; omega), isForward_unique b2 _ (by simp; omega), List.map_append, List.map_append,
        List.take_append, List.take_append, List.take_of_length_le (l := S₁.map (stepProp p Ls)) (by simp; omega),
        List.take_of_length_le (l := S₁.map (stepProp p Ls)) (by simp; omega),
        List.length_map, show S₁.length + 1 + j + 1 - S₁.length = j + 1 + 1 by omega,
        show S₁.length + 1 + j - S₁.length = j + 1 by omega]
      simp only [List.map_cons, List.take_succ_cons, List.foldl_append, List.foldl_cons]
      rw [← Matrix.mul_assoc, stepProp_parts, hab]
    · rw [List.getElem?_eq_none (by omega), List.getElem?_eq_none (by omega)]

theorem c128_zero_step (p : LPar n) (Ls : List (Matrix n n ℂ)) (h : p.Local Ls) (hm : p.method = .frechet) (hE : p.L.ExpmOk)
    (S₁ S₂ : List (OpenStep n)) (s : OpenStep n) (hs : s.τ = 0) (hne : S₁ ++ S₂ ≠ [])
    (hrow : ∀ r ∈ S₁ ++ s :: S₂, r.u.length = p.ctrl.length) :
    ∃ f f', openRun p (S₁ ++ S₂) = .ok f ∧ openRun p (S₁ ++ s :: S₂) = .ok f' ∧ f.length = S₁.length + S₂.length + 1 ∧
      (∀ i ≤ S₁.length, f'[i]? = f[i]?) ∧ ∀ i, S₁.length ≤ i → f'[i + 1]? = f[i]? := by
  have hone : stepProp p Ls s = 1 := by
    unfold stepProp
    rw [hs, Complex.ofReal_zero, zero_smul, NormedSpace.exp_zero]
  obtain ⟨f, a1, a2⟩ := openRun_ok p h hm hE (S₁ ++ S₂) hne fun r hr => hrow r (by
    simp only [List.mem_append, List.mem_cons] at hr ⊢
    tauto)
  obtain ⟨f', b1, b2⟩ := openRun_ok p h hm hE (S₁ ++ s :: S₂) (by simp) hrow
  have e1 := a2.1
  have e2 := b2.1
  simp only [List.length_map, List.length_append, List.length_cons] at e1 e2
  refine ⟨f, f', a1, b1, by omega, fun i hi => ?_, fun i hi => ?_⟩
  · rw [isForward_unique a2 i (by simp; omega), isForward_unique b2 i (by simp; omega), List.map_append, List.map_append,
      List.take_append_of_le_length (by simpa using hi), List.take_append_of_le_length (by simpa using hi)]
  · by_cases hj : i ≤ S₁.length + S₂.length
    · obtain ⟨j, rfl⟩ := Nat.exists_eq_add_of_le hi
      rw [isForward_unique a2 _ (by simp; omega), isForward_unique b2 _ (by simp; omega), List.map_append, List.map_append,
        List.take_append, List.take_append, List.take_of_length_le (l := S₁.map (stepProp p Ls)) (by simp; omega),
        List.take_of_length_le (l := S₁.map (stepProp p Ls)) (by simp),
        List.length_map, show S₁.length + j + 1 - S₁.length = j + 1 by omega, show S₁.length + j - S₁.length = j by omega]
      simp only [List.map_cons, List.take_succ_cons, List.foldl_append, List.foldl_cons, hone, Matrix.one_mul]
    · rw [List.getElem?_eq_none (by omega), List.getElem?_eq_none (by omega)]

namespace Ex128

/-- A qubit which is driven, and decays and dephases at rates that depend on the amplitude. -/
noncomputable def driven (L : Lapack (Fin 2 × Fin 2)) : LPar (Fin 2) :=
  ⟨L, .frechet, false, 1, [], [!![0, 1; 1, 0]],
    ⟨none, some [!![0, 1; 0, 0], !![1, 0; 0, -1]], some fun u x => List.zipWith (fun r _ => [r.headD 0 ^ 2, 1]) u x, none, none, none⟩⟩

theorem driven_local (L : Lapack (Fin 2 × Fin 2)) : (driven L).Local [!![0, 1; 0, 0], !![1, 0; 0, -1]] :=
  ⟨rfl, rfl, by simp, fun f hf => by cases hf; exact ⟨_, fun _ _ => rfl, fun _ _ => rfl⟩⟩

example : ∃ (L : Lapack (Fin 2 × Fin 2)) (f₁ f₂ f : List (Sup (Fin 2))) (E₁ E₂ : Sup (Fin 2)),
    openRun (driven L) [⟨!![1, 0; 0, -1], 2, [3], []⟩] = .ok f₁ ∧ openRun (driven L) [⟨0, 1, [-1], [4]⟩, ⟨0, 1, [2], [4]⟩] = .ok f₂ ∧
      openRun (driven L) [⟨!![1, 0; 0, -1], 2, [3], []⟩, ⟨0, 1, [-1], [4]⟩, ⟨0, 1, [2], [4]⟩] = .ok f ∧
      f₁.getLast? = some E₁ ∧ f₂.getLast? = some E₂ ∧ f.getLast? = some (E₂ * E₁) := by
  obtain ⟨L, -, -, hE, -⟩ := lapack_exists (Fin 2 × Fin 2)
  exact ⟨L, c128_product (driven L) _ (driven_local L) rfl hE rfl [_] [_, _] (by simp) (by simp) (by simp [driven])⟩

example : ∃ (L : Lapack (Fin 2 × Fin 2)) (f f' : List (Sup (Fin 2))),
    openRun (driven L) [⟨!![1, 0; 0, -1], 2, [3], []⟩] = .ok f ∧
      openRun (driven L) [⟨!![1, 0; 0, -1], 2 / (2 : ℕ), [3], []⟩, ⟨!![1, 0; 0, -1], 2 / (2 : ℕ), [3], []⟩] = .ok f' ∧
      f'[2]? = f[1]? := by
  obtain ⟨L, -, -, hE, -⟩ := lapack_exists (Fin 2 × Fin 2)
  obtain ⟨f, f', h1, h2, -, -, h3⟩ := c128_refine (driven L) _ (driven_local L) rfl hE [⟨!![1, 0; 0, -1], 2, [3], []⟩] (by simp)
    (by simp [driven]) 2 (by norm_num)
  exact ⟨L, f, f', h1, h2, h3 1 le_rfl⟩

example : ∃ (L : Lapack (Fin 2 × Fin 2)) (f f' : List (Sup (Fin 2))),
    openRun (driven L) [⟨!![1, 0; 0, -1], 2, [3], []⟩] = .ok f ∧
      openRun (driven L) [⟨!![1, 0; 0, -1], 1 / 2, [3], []⟩, ⟨!![1, 0; 0, -1], 3 / 2, [3], []⟩] = .ok f' ∧ f'[2]? = f[1]? := by
  obtain ⟨L, -, -, hE, -⟩ := lapack_exists (Fin 2 × Fin 2)
  obtain ⟨f, f', h1, h2, -, -, -, h3⟩ := c128_split (driven L) _ (driven_local L) rfl hE [] [] ⟨!![1, 0; 0, -1], 2, [3], []⟩
    (1 / 2) (3 / 2) (by norm_num) (by simp [driven])
  exact ⟨L, f, f', h1, h2, h3 1 (by simp)⟩

example : ∃ (L : Lapack (Fin 2 × Fin 2)) (f f' : List (Sup (Fin 2))),
    openRun (driven L) [⟨!![1, 0; 0, -1], 2, [3], []⟩] = .ok f ∧
      openRun (driven L) [⟨!![1, 0; 0, -1], 2, [3], []⟩, ⟨0, 0, [7], [9]⟩] = .ok f' ∧ f'[2]? = f[1]? := by
  obtain ⟨L, -, -, hE, -⟩ := lapack_exists (Fin 2 × Fin 2)
  obtain ⟨f, f', h1, h2, -, -, h3⟩ := c128_zero_step (driven L) _ (driven_local L) rfl hE [⟨!![1, 0; 0, -1], 2, [3], []⟩] []
    ⟨0, 0, [7], [9]⟩ rfl (by simp) (by simp [driven])
  exact ⟨L, f, f', h1, h2, h3 1 (by simp)⟩

end Ex128
end
end Verif.Solver
