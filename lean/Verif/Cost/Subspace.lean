import Verif.Cost.State
import Verif.Operator.PtraceThms
import Verif.Operator.VecThms

/-!
# C52: state fidelity on a subspace

The arrays are the row major buffers of `Verif.Operator.Array`, with the model of `ptrace` used for C18 (`order` is the
iteration order of the Python set of kept subsystems).
-/

namespace Verif.Cost
open Verif Verif.Operator Verif.Solver Matrix

section

/-- `leakage_total_dimension`, cost_functions.py:604-606 (negative subsystem indices not modelled). -/
def leakDim (dims : List Nat) : List Nat → Except PyErr Nat
  | [] => .ok 1
  | k :: ks => do
    let d ← idx dims k
    let r ← leakDim dims ks
    pure (d * r)

/-- The density matrix handed to `ptrace`, cost_functions.py:608-615: a column with as many entries as a density matrix of
the whole system is taken for a vectorised density matrix. -/
noncomputable def squareState (target state : Arr ℂ) (leak : Nat) : Except PyErr (Arr ℂ) :=
  if (target.buf.length * leak) ^ 2 ≤ state.buf.length ∧ state.cols = 1 then ketToSquare state else .ok state

/-- `target * state.ptrace(dims, remove) * target.dag()`. -/
noncomputable def sandwich (order : List Nat → List Nat) (target a : Arr ℂ) (dims remove : List Nat) : Except PyErr (Arr ℂ) := do
  let rho ← ptrace order a dims remove
  let x ← target.matmul rho
  x.matmul target.dag

/-- The checks on the scalar product, cost_functions.py:621-631: indexing the numpy scalar in the branch for complex
values raises `IndexError`. -/
noncomputable def realScalar (sp : Arr ℂ) : Except PyErr ℝ :=
  if sp.rows = 1 ∧ sp.cols = 1 then
    if 1 / 100000 < ‖sp.entry 0 0 - ((sp.entry 0 0).re : ℂ)‖ then .error .indexError else .ok (sp.entry 0 0).re
  else .error .valueError

/-- `state_fidelity_subspace`, cost_functions.py:551-635. -/
noncomputable def subspaceFid (order : List Nat → List Nat) (target state : Arr ℂ) (dims remove : List Nat) : Except PyErr ℝ := do
  let leak ← leakDim dims remove
  let st ← squareState target state leak
  let sp ← sandwich order target st dims remove
  realScalar sp

/-- The numpy array of a matrix. -/
noncomputable def toArr {r c : Nat} (M : Matrix (Fin r) (Fin c) ℂ) : Arr ℂ :=
  Arr.ofFn r c fun i j => if h : i < r ∧ j < c then M ⟨i, h.1⟩ ⟨j, h.2⟩ else 0

/-- `gradTable` for an entry function that may raise. -/
def gradTableE {n m : Type} [Fintype n] (fwd : List (Matrix n m ℂ)) (dP : List (List (Matrix n n ℂ))) (rev : List (Matrix n n ℂ))
    (f : Matrix n m ℂ → Except PyErr ℝ) : Except PyErr (List (List ℝ)) := do
  let row0 ← idx dP 0
  table row0.length dP.length fun t c => do
    let R ← idx rev.reverse (t + 1)
    let row ← idx dP c
    let D ← idx row t
    let F ← idx fwd t
    f (R * D * F)

/-- `(...)[0, 0]`. -/
def corner (a : Arr ℂ) : Except PyErr ℂ := if 0 < a.rows ∧ 0 < a.cols then .ok (a.entry 0 0) else .error .indexError

/-- `derivative_state_fidelity_subspace`, cost_functions.py:638-700, for kets. -/
noncomputable def derivSubspaceFid {d : Nat} (order : List Nat → List Nat) (target : Arr ℂ) (dims remove : List Nat)
    (fwd : List (Matrix (Fin d) (Fin 1) ℂ)) (dP : List (List (Matrix (Fin d) (Fin d) ℂ))) (rev : List (Matrix (Fin d) (Fin d) ℂ)) :
    Except PyErr (List (List ℝ)) := do
  let final ← last fwd
  gradTableE fwd dP rev fun X => do
    let sp ← sandwich order target (toArr (X * finalᴴ)) dims remove
    let z ← corner sp
    pure (2 * z.re)

/-- `StateInfidelitySubspace.costs`, cost_functions.py:1085-1094. -/
noncomputable def subspaceCosts {d : Nat} (order : List Nat → List Nat) (target : Arr ℂ) (dims remove : List Nat)
    (fwd : List (Matrix (Fin d) (Fin 1) ℂ)) : Except PyErr ℝ := do
  let final ← last fwd
  let f ← subspaceFid order target (toArr final) dims remove
  pure (1 - f)

/-- `StateInfidelitySubspace.grad`, cost_functions.py:1096-1106. -/
noncomputable def subspaceGrad {d : Nat} (order : List Nat → List Nat) (target : Arr ℂ) (dims remove : List Nat)
    (fwd : List (Matrix (Fin d) (Fin 1) ℂ)) (dP : List (List (Matrix (Fin d) (Fin d) ℂ))) (rev : List (Matrix (Fin d) (Fin d) ℂ)) :
    Except PyErr (List (List ℝ)) := do
  let g ← derivSubspaceFid order target dims remove fwd dP rev
  pure (negTable g)

/-! ## Specification -/

/-- Some but not all subsystems are removed, each once, from a space of two or more dimensions. -/
structure Removal (dims remove : List Nat) : Prop where
  big : 2 ≤ dims.prod
  nodup : remove.Nodup
  lt : ∀ k ∈ remove, k < dims.length
  ne : remove ≠ []
  proper : ∃ k < dims.length, k ∉ remove

/-- A bra on the kept subsystems. -/
structure BraOn (order : List Nat → List Nat) (dims remove : List Nat) (T : Arr ℂ) : Prop where
  wf : T.WF
  rows : T.rows = 1
  cols : T.cols = keptDim order dims remove

/-- A ket of the whole system. -/
structure KetOn (dims : List Nat) (ψ : Arr ℂ) : Prop where
  wf : ψ.WF
  rows : ψ.rows = dims.prod
  cols : ψ.cols = 1

/-- A matrix on the whole system. -/
structure MatOn (dims : List Nat) (a : Arr ℂ) : Prop where
  wf : a.WF
  rows : a.rows = dims.prod
  cols : a.cols = dims.prod

/-- Dimension of the removed subsystems. -/
def removedDim (dims remove : List Nat) : Nat := ((sortedRemove remove).map fun k => dims.getD k 0).prod

/-- Scalar product of the target with the component of `f` in which the removed subsystems are in state `i`. -/
noncomputable def braket (order : List Nat → List Nat) (dims remove : List Nat) (T : Arr ℂ) (f : Nat → ℂ) (i : Nat) : ℂ :=
  ∑ j ∈ Finset.range (keptDim order dims remove),
    T.entry 0 j * f (joinIdx dims (sortedRemove remove) (keepOf order dims.length remove) i j)

/-! ## Lemmas -/

theorem leakDim_ok (dims remove : List Nat) (h : ∀ k ∈ remove, k < dims.length) :
    leakDim dims remove = .ok (removedDim dims remove) := by
  have h1 : ∀ l : List Nat, (∀ k ∈ l, k < dims.length) → leakDim dims l = .ok (l.map fun k => dims.getD k 0).prod := by
    intro l
    induction l with
    | nil => intro _; rfl
    | cons k l ih =>
      intro hl
      have hk := hl k (by simp)
      rw [leakDim, idx_ok (List.getElem?_eq_getElem hk)]
      simp only [bind, Except.bind]
      rw [ih fun k hk => hl k (by simp [hk])]
      simp only [pure, Except.pure, List.map_cons, List.prod_cons, List.getD_eq_getElem _ _ hk]
  rw [h1 remove h, removedDim]
  congr 1
  exact (((sortedRemove_perm remove).map fun k => dims.getD k 0).prod_eq).symm

variable {order : List Nat → List Nat} (ho : ∀ l, (order l).Perm l) {dims remove : List Nat} (hR : Removal dims remove)
include ho hR

theorem dims_prod : keptDim order dims remove * removedDim dims remove = dims.prod := by
  rw [mul_comm]
  exact (split_of order ho _ _ hR.nodup hR.lt).prod dims rfl

theorem traceable {a : Arr ℂ} (ha : MatOn dims a) : Traceable a dims remove :=
  ⟨ha.wf, ha.rows, ha.cols, by have := hR.big; omega, hR.nodup, hR.lt, hR.ne, hR.proper⟩

theorem sandwich_closed {T a : Arr ℂ} (hT : BraOn order dims remove T) (ha : MatOn dims a) :
    ∃ sp, sandwich order T a dims remove = .ok sp ∧ sp.rows = 1 ∧ sp.cols = 1 ∧
      sp.entry 0 0 = ∑ i ∈ Finset.range (removedDim dims remove), ∑ k ∈ Finset.range (keptDim order dims remove),
        (∑ j ∈ Finset.range (keptDim order dims remove), T.entry 0 j *
          a.entry (joinIdx dims (sortedRemove remove) (keepOf order dims.length remove) i j)
            (joinIdx dims (sortedRemove remove) (keepOf order dims.length remove) i k)) * star (T.entry 0 k) := by
  unfold sandwich
  rw [ptrace_closed order ho (traceable ho hR ha)]
  set rho := Arr.ofFn (keptDim order dims remove) (keptDim order dims remove)
      fun j k => ∑ i ∈ Finset.range ((sortedRemove remove).map fun k => dims.getD k 0).prod,
          a.entry (joinIdx dims (sortedRemove remove) (keepOf order dims.length remove) i j)
            (joinIdx dims (sortedRemove remove) (keepOf order dims.length remove) i k) with hrho
  obtain ⟨x, e1, -, e3, e4, e5⟩ := Arr.matmul_spec (a := T) (b := rho) (by rw [hT.cols]; rfl)
  obtain ⟨y, f1, -, f3, f4, f5⟩ := Arr.matmul_spec (a := x) (b := T.dag) (by
    rw [e4]
    show keptDim order dims remove = T.cols
    rw [hT.cols])
  refine ⟨y, ?_, by rw [f3, e3, hT.rows], ?_, ?_⟩
  · simp only [bind, Except.bind]
    rw [e1]
    exact f1
  · rw [f4]
    show T.rows = 1
    exact hT.rows
  · rw [f5 0 (by rw [e3, hT.rows]; norm_num) 0 (by show 0 < T.rows; rw [hT.rows]; norm_num), e4]
    show ∑ k ∈ Finset.range (keptDim order dims remove), _ = _
    rw [Finset.sum_comm]
    refine Finset.sum_congr rfl fun k hk => ?_
    have hk' : k < keptDim order dims remove := Finset.mem_range.mp hk
    rw [e5 0 (by rw [hT.rows]; norm_num) k (by exact hk'), Arr.entry_dag _ (by rw [hT.cols]; exact hk') (by rw [hT.rows]; norm_num),
      ← Finset.sum_mul, hT.cols]
    congr 1
    rw [Finset.sum_comm]
    refine Finset.sum_congr rfl fun j hj => ?_
    have hj' : j < keptDim order dims remove := Finset.mem_range.mp hj
    rw [hrho, Arr.entry_ofFn _ hj' hk', ← Finset.mul_sum]
    rfl

/-- The sandwich of an outer product. -/
theorem sandwich_outer {T a : Arr ℂ} (hT : BraOn order dims remove T) (ha : MatOn dims a) (f g : Nat → ℂ)
    (hfg : ∀ p < dims.prod, ∀ q < dims.prod, a.entry p q = f p * star (g q)) :
    ∃ sp, sandwich order T a dims remove = .ok sp ∧ sp.rows = 1 ∧ sp.cols = 1 ∧
      sp.entry 0 0 = ∑ i ∈ Finset.range (removedDim dims remove),
        braket order dims remove T f i * star (braket order dims remove T g i) := by
  obtain ⟨sp, h1, h2, h3, h4⟩ := sandwich_closed ho hR hT ha
  refine ⟨sp, h1, h2, h3, ?_⟩
  rw [h4]
  refine Finset.sum_congr rfl fun i hi => ?_
  have hi' := Finset.mem_range.mp hi
  have hs := split_of order ho _ _ hR.nodup hR.lt
  unfold braket
  rw [star_sum, Finset.mul_sum]
  refine Finset.sum_congr rfl fun k hk => ?_
  have hk' := Finset.mem_range.mp hk
  rw [Finset.sum_mul, Finset.sum_mul]
  refine Finset.sum_congr rfl fun j hj => ?_
  have hj' := Finset.mem_range.mp hj
  rw [hfg _ (joinIdx_lt hs hi' hj') _ (joinIdx_lt hs hi' hk'), star_mul']
  ring

/-- The fidelity of a ket. -/
theorem subspaceFid_ket {T ψ : Arr ℂ} (hT : BraOn order dims remove T) (hψ : KetOn dims ψ) :
    subspaceFid order T ψ dims remove = .ok (∑ i ∈ Finset.range (removedDim dims remove),
      ‖braket order dims remove T (fun p => ψ.entry p 0) i‖ ^ 2) := by
  have hTl : T.buf.length = keptDim order dims remove := by rw [hT.wf, hT.rows, hT.cols, one_mul]
  have hψl : ψ.buf.length = dims.prod := by rw [hψ.wf, hψ.rows, hψ.cols, mul_one]
  have hsq : squareState T ψ (removedDim dims remove) = .ok ψ := by
    unfold squareState
    rw [if_neg]
    rintro ⟨h, -⟩
    rw [hTl, dims_prod ho hR, hψl] at h
    have := hR.big
    nlinarith
  obtain ⟨ρ, e1, e2⟩ := c18_ket order ψ dims remove hψ.cols (by rw [hψ.rows]; have := hR.big; omega)
  obtain ⟨w, f1, f2, f3, f4, f5⟩ := Arr.matmul_spec (a := ψ) (b := ψ.dag) (by simp)
  rw [e1] at f1
  cases f1
  have hρ : MatOn dims ρ := ⟨f2, by rw [f3, hψ.rows], by rw [f4]; exact hψ.rows⟩
  obtain ⟨sp, h1, h2, h3, h4⟩ := sandwich_outer ho hR hT hρ (fun p => ψ.entry p 0) (fun p => ψ.entry p 0) (by
    intro p hp q hq
    rw [f5 p (by rw [hψ.rows]; exact hp) q (by show q < ψ.rows; rw [hψ.rows]; exact hq), hψ.cols, Finset.sum_range_one,
      Arr.entry_dag _ (by rw [hψ.cols]; norm_num) (by rw [hψ.rows]; exact hq)])
  have h5 : sp.entry 0 0 = ((∑ i ∈ Finset.range (removedDim dims remove),
      ‖braket order dims remove T (fun p => ψ.entry p 0) i‖ ^ 2 : ℝ) : ℂ) := by
    rw [h4, Complex.ofReal_sum]
    refine Finset.sum_congr rfl fun i _ => ?_
    rw [← Complex.normSq_eq_norm_sq, ← Complex.mul_conj]
    rfl
  have hsand : sandwich order T ψ dims remove = .ok sp := by
    rw [← h1]
    unfold sandwich
    rw [e2]
  unfold subspaceFid
  rw [leakDim_ok dims remove hR.lt]
  simp only [bind, Except.bind]
  rw [hsq]
  simp only
  rw [hsand]
  simp only [realScalar, h2, h3, h5, Complex.ofReal_re, sub_self, norm_zero, and_self, if_true]
  rw [if_neg (by norm_num)]

/-! ## Theorems -/

/-- **C52** The fidelity of a normalised ket lies in `[0, 1]`. -/
theorem c52_range_partial {T ψ : Arr ℂ} (hT : BraOn order dims remove T) (hψ : KetOn dims ψ)
    (hTn : ∑ j ∈ Finset.range T.cols, ‖T.entry 0 j‖ ^ 2 = 1) (hψn : ∑ p ∈ Finset.range ψ.rows, ‖ψ.entry p 0‖ ^ 2 = 1) :
    ∃ F, subspaceFid order T ψ dims remove = .ok F ∧ 0 ≤ F ∧ F ≤ 1 := by
  refine ⟨_, subspaceFid_ket ho hR hT hψ, Finset.sum_nonneg fun _ _ => sq_nonneg _, ?_⟩
  rw [hψ.rows, ← sum_join (split_of order ho _ _ hR.nodup hR.lt) fun p => ‖ψ.entry p 0‖ ^ 2, Finset.sum_comm] at hψn
  rw [← hψn]
  refine Finset.sum_le_sum fun i _ => ?_
  rw [hT.cols] at hTn
  have h1 := overlap (k := Fin (keptDim order dims remove)) (fun j => T.entry 0 j)
    (fun j => ψ.entry (joinIdx dims (sortedRemove remove) (keepOf order dims.length remove) i j) 0) (by
      rw [Finset.sum_range] at hTn; exact hTn)
  have h2 := Finset.sum_nonneg fun (j : Fin (keptDim order dims remove)) (_ : j ∈ Finset.univ) =>
    sq_nonneg ‖ψ.entry (joinIdx dims (sortedRemove remove) (keepOf order dims.length remove) i j) 0 -
      (∑ j : Fin (keptDim order dims remove), T.entry 0 j *
        ψ.entry (joinIdx dims (sortedRemove remove) (keepOf order dims.length remove) i j) 0) * star (T.entry 0 j)‖
  rw [h1] at h2
  unfold braket
  rw [Finset.sum_range]
  have h3 : ∑ j : Fin (keptDim order dims remove), ‖ψ.entry (joinIdx dims (sortedRemove remove) (keepOf order dims.length remove) i j) 0‖ ^ 2
      = ∑ j ∈ Finset.range (keptDim order dims remove), ‖ψ.entry (joinIdx dims (sortedRemove remove) (keepOf order dims.length remove) i j) 0‖ ^ 2 :=
    (Finset.sum_range fun j => ‖ψ.entry (joinIdx dims (sortedRemove remove) (keepOf order dims.length remove) i j) 0‖ ^ 2).symm
  rw [h3] at h2
  have h4 : ∑ j ∈ Finset.range ((keepOf order dims.length remove).map fun k => dims.getD k 0).prod,
      ‖ψ.entry (joinIdx dims (sortedRemove remove) (keepOf order dims.length remove) i j) 0‖ ^ 2 =
      ∑ j ∈ Finset.range (keptDim order dims remove), ‖ψ.entry (joinIdx dims (sortedRemove remove) (keepOf order dims.length remove) i j) 0‖ ^ 2 := rfl
  rw [h4]
  linarith

/-- **C52** The fidelity of a product of a state `χ` of the removed subsystems and a state `φ` of the kept ones is the
squared norm of `χ` times the state fidelity of `φ`. -/
theorem c52_product_partial {T ψ : Arr ℂ} (hT : BraOn order dims remove T) (hψ : KetOn dims ψ) (χ φ : Nat → ℂ)
    (hprod : ∀ p < dims.prod, ψ.entry p 0 = χ (restrictIdx dims (sortedRemove remove) p) *
      φ (restrictIdx dims (keepOf order dims.length remove) p)) :
    ∃ F, stateFid (n := Fin (keptDim order dims remove)) none (Matrix.of fun _ j => T.entry 0 j : Matrix (Fin 1) (Fin (keptDim order dims remove)) ℂ)
        (Matrix.of fun j _ => φ j : Matrix (Fin (keptDim order dims remove)) (Fin 1) ℂ) false = .ok F ∧
      subspaceFid order T ψ dims remove = .ok ((∑ i ∈ Finset.range (removedDim dims remove), ‖χ i‖ ^ 2) * F) := by
  refine ⟨_, stateFid_eq (n := Fin (keptDim order dims remove)) none _ _ _, ?_⟩
  rw [subspaceFid_ket ho hR hT hψ, Finset.sum_mul]
  congr 1
  refine Finset.sum_congr rfl fun i hi => ?_
  rw [← mul_pow, ← norm_mul]
  congr 2
  have hs := split_of order ho _ _ hR.nodup hR.lt
  have hi' := Finset.mem_range.mp hi
  show braket order dims remove T (fun p => ψ.entry p 0) i = χ i * ∑ j : Fin (keptDim order dims remove), T.entry 0 j * φ j
  rw [← Finset.sum_range fun j => T.entry 0 j * φ j, braket, Finset.mul_sum]
  refine Finset.sum_congr rfl fun j hj => ?_
  have hj' := Finset.mem_range.mp hj
  rw [hprod _ (joinIdx_lt hs hi' hj'), restrict_rm hs hi' hj', restrict_keep hs hi' hj']
  ring

/-- **C52** A ket, its density matrix and its vectorised density matrix give the same value. -/
theorem c52_ket_density_partial {T ψ : Arr ℂ} (hT : BraOn order dims remove T) (hψ : KetOn dims ψ) :
    ∃ ρ v, ψ.matmul ψ.dag = .ok ρ ∧ ketVectorize ρ = .ok v ∧
      subspaceFid order T ρ dims remove = subspaceFid order T ψ dims remove ∧
      subspaceFid order T v dims remove = subspaceFid order T ψ dims remove := by
  have hTl : T.buf.length = keptDim order dims remove := by rw [hT.wf, hT.rows, hT.cols, one_mul]
  have hbig := hR.big
  obtain ⟨ρ, e1, e2⟩ := c18_ket order ψ dims remove hψ.cols (by rw [hψ.rows]; omega)
  obtain ⟨w, f1, f2, f3, f4, -⟩ := Arr.matmul_spec (a := ψ) (b := ψ.dag) (by simp)
  rw [e1] at f1
  cases f1
  have hρ : MatOn dims ρ := ⟨f2, by rw [f3, hψ.rows], by rw [f4]; exact hψ.rows⟩
  have hsq : ρ.rows = ρ.cols := by rw [hρ.rows, hρ.cols]
  have hv := ketVectorize_ok ρ hρ.wf hsq
  have hback := c16_square_of_vectorized ρ hρ.wf hsq
  rw [hv] at hback
  have hψl : ψ.buf.length = dims.prod := by rw [hψ.wf, hψ.rows, hψ.cols, mul_one]
  have s1 : squareState T ψ (removedDim dims remove) = .ok ψ := by
    unfold squareState
    rw [if_neg]
    rintro ⟨h, -⟩
    rw [hTl, dims_prod ho hR, hψl] at h
    nlinarith
  have s2 : squareState T ρ (removedDim dims remove) = .ok ρ := by
    unfold squareState
    rw [if_neg]
    rintro ⟨-, h⟩
    rw [hρ.cols] at h
    omega
  have s3 : squareState T ⟨ρ.rows * ρ.rows, 1, ρ.transpose.buf⟩ (removedDim dims remove) = .ok ρ := by
    unfold squareState
    rw [if_pos]
    · exact hback
    · refine ⟨?_, rfl⟩
      show _ ≤ ρ.transpose.buf.length
      rw [hTl, dims_prod ho hR, Arr.transpose_wf ρ, Arr.transpose_rows, Arr.transpose_cols, hρ.rows, hρ.cols, sq]
  have hpsi : subspaceFid order T ψ dims remove = sandwich order T ρ dims remove >>= realScalar := by
    unfold subspaceFid
    rw [leakDim_ok dims remove hR.lt]
    simp only [bind, Except.bind, s1]
    unfold sandwich
    rw [e2]
  refine ⟨ρ, _, e1, hv, ?_, ?_⟩
  · rw [hpsi]
    unfold subspaceFid
    rw [leakDim_ok dims remove hR.lt]
    simp only [bind, Except.bind, s2]
  · rw [hpsi]
    unfold subspaceFid
    rw [leakDim_ok dims remove hR.lt]
    simp only [bind, Except.bind, s3]

omit ho hR in
theorem entry_toArr {r c : Nat} (M : Matrix (Fin r) (Fin c) ℂ) {i j : Nat} (hi : i < r) (hj : j < c) :
    (toArr M).entry i j = M ⟨i, hi⟩ ⟨j, hj⟩ := by
  unfold toArr
  rw [Arr.entry_ofFn _ hi hj, dif_pos ⟨hi, hj⟩]

omit ho hR in
theorem gradTableE_ok {n m : Type} [Fintype n] (fwd : List (Matrix n m ℂ)) (dP : List (List (Matrix n n ℂ))) (rev : List (Matrix n n ℂ))
    (f : Matrix n m ℂ → Except PyErr ℝ) (g : Matrix n m ℂ → ℝ) (h : ∀ X, f X = .ok (g X)) :
    gradTableE fwd dP rev f = gradTable fwd dP rev g := by
  unfold gradTableE gradTable
  simp only [h]
  rfl

/-- **C52** `StateInfidelitySubspace.grad` is the derivative of its costs for kets. -/
theorem c52_gradient_partial {T : Arr ℂ} (hT : BraOn order dims remove T) (init : Matrix (Fin dims.prod) (Fin 1) ℂ)
    (ps : List (Matrix (Fin dims.prod) (Fin dims.prod) ℂ)) (nc : Nat) (hnc : 0 < nc) (tr : Trace (Fin dims.prod) (Fin 1))
    (htr : tr.Of init ps nc) :
    ∃ g, subspaceGrad order T dims remove tr.fwd tr.dP tr.rev = .ok g ∧ Rect g ps.length nc ∧
      ∀ t c P D fwds, Sweep init ps t P D fwds → tr.derivAt t c = some D →
        ∃ (G : ℝ) (cost : ℝ → ℝ), entry g t c = some G ∧ (∀ x, subspaceCosts order T dims remove (fwds x) = .ok (cost x)) ∧
          subspaceCosts order T dims remove tr.fwd = .ok (cost 0) ∧ HasDerivAt cost G 0 := by
  obtain ⟨E, hE⟩ : ∃ E, tr.fwd.getLast? = some E := by
    have : tr.fwd ≠ [] := by
      intro h0
      have := htr.forward.1
      rw [h0] at this
      simp at this
    exact ⟨_, List.getLast?_eq_some_getLast this⟩
  set amp : Matrix (Fin dims.prod) (Fin 1) ℂ → Nat → ℂ := fun X i => braket order dims remove T (fun p => (toArr X).entry p 0) i with hamp
  have hval : ∀ X : Matrix (Fin dims.prod) (Fin 1) ℂ,
      (do let sp ← sandwich order T (toArr (X * Eᴴ)) dims remove
          let z ← corner sp
          pure (2 * z.re) : Except PyErr ℝ) =
        .ok (2 * (∑ i ∈ Finset.range (removedDim dims remove), amp X i * star (amp E i)).re) := by
    intro X
    obtain ⟨sp, h1, h2, h3, h4⟩ := sandwich_outer ho hR hT (a := toArr (X * Eᴴ)) ⟨Arr.ofFn_wf _ _ _, rfl, rfl⟩
      (fun p => (toArr X).entry p 0) (fun p => (toArr E).entry p 0) (by
        intro p hp q hq
        rw [entry_toArr _ hp hq, entry_toArr _ hp Nat.one_pos, entry_toArr _ hq Nat.one_pos, Matrix.mul_apply, Fin.sum_univ_one]
        rfl)
    rw [h1]
    simp only [bind, Except.bind, corner, h2, h3, Nat.one_pos, and_self, if_true, pure, Except.pure]
    rw [h4]
  obtain ⟨g, h1, h2, h3⟩ := gradTable_entry htr hnc fun X =>
    2 * (∑ i ∈ Finset.range (removedDim dims remove), amp X i * star (amp E i)).re
  have hcost : ∀ X : Matrix (Fin dims.prod) (Fin 1) ℂ, subspaceFid order T (toArr X) dims remove =
      .ok (∑ i ∈ Finset.range (removedDim dims remove), ‖amp X i‖ ^ 2) := fun X =>
    subspaceFid_ket ho hR hT ⟨Arr.ofFn_wf _ _ _, rfl, rfl⟩
  refine ⟨negTable g, ?_, rect_neg h2, fun t c P D fwds hs hD => ?_⟩
  · unfold subspaceGrad derivSubspaceFid
    rw [last_ok hE]
    simp only [bind, Except.bind] at hval ⊢
    rw [gradTableE_ok _ _ _ _ _ hval, h1]
    rfl
  · obtain ⟨R, F, e1, e2, e3, e4, e5⟩ := hs.final htr
    rw [hE] at e4
    simp only [Option.some.injEq] at e4
    refine ⟨_, fun x => 1 - ∑ i ∈ Finset.range (removedDim dims remove), ‖amp (R * P x * F) i‖ ^ 2,
      entry_neg (h3 t c R D F e1 hD e2), fun x => ?_, ?_, ?_⟩
    · unfold subspaceCosts
      rw [last_ok (e3 x)]
      simp only [bind, Except.bind]
      rw [hcost]
      rfl
    · unfold subspaceCosts
      rw [last_ok hE, e4]
      simp only [bind, Except.bind]
      rw [hcost]
      rfl
    · have hd : ∀ i ∈ Finset.range (removedDim dims remove),
          HasDerivAt (fun x => amp (R * P x * F) i) (amp (R * D * F) i) 0 := by
        intro i hi
        refine HasDerivAt.fun_sum fun j hj => HasDerivAt.const_mul _ ?_
        have hlt := joinIdx_lt (split_of order ho _ _ hR.nodup hR.lt) (Finset.mem_range.mp hi) (Finset.mem_range.mp hj)
        have e : ∀ M : Matrix (Fin dims.prod) (Fin 1) ℂ, (toArr M).entry (joinIdx dims (sortedRemove remove) (keepOf order dims.length remove) i j) 0 =
            M ⟨_, hlt⟩ 0 := fun M => entry_toArr M hlt Nat.one_pos
        simp only [e]
        exact e5 ⟨_, hlt⟩ 0
      have h6 := HasDerivAt.fun_sum fun i hi => hasDerivAt_norm_sq (hd i hi)
      clear_value amp
      refine (h6.const_sub 1).congr_deriv (congrArg Neg.neg ?_)
      rw [e4, Complex.re_sum, Finset.mul_sum]
      refine Finset.sum_congr rfl fun i _ => ?_
      rw [mul_comm (star _)]

omit ho hR in
/-- **C52** Unknown subsystems are rejected before anything else, a state of the wrong dimension is rejected. -/
theorem c52_rejects (T ψ : Arr ℂ) (dims remove : List Nat) :
    ((∃ k ∈ remove, dims.length ≤ k) → subspaceFid order T ψ dims remove = .error .indexError) ∧
    ((∀ k ∈ remove, k < dims.length) → ψ.cols ≠ 1 → ψ.rows ≠ dims.prod →
      subspaceFid order T ψ dims remove = .error .assertionError) := by
  constructor
  · intro h
    have : leakDim dims remove = .error .indexError := by
      induction remove with
      | nil => simp at h
      | cons k l ih =>
        rw [leakDim]
        by_cases hk : k < dims.length
        · rw [idx_ok (List.getElem?_eq_getElem hk)]
          simp only [bind, Except.bind]
          rw [ih]
          obtain ⟨k', h1, h2⟩ := h
          rcases List.mem_cons.mp h1 with rfl | h1
          · omega
          · exact ⟨k', h1, h2⟩
        · have : idx dims k = .error .indexError := by
            unfold idx
            rw [List.getElem?_eq_none (by omega)]
          rw [this]
          rfl
    unfold subspaceFid
    rw [this]
    rfl
  · intro h1 h2 h3
    unfold subspaceFid
    rw [leakDim_ok dims remove h1]
    simp only [bind, Except.bind, squareState, h2, and_false, if_false]
    unfold sandwich
    rw [c18_rejects order ψ dims remove h3]
    rfl

omit ho hR in
/-- **C52 violated**: with nothing removed the fidelity should be the ordinary state fidelity, with everything removed the
squared norm; both raise `TypeError`, for every matrix on the whole system (and so for every ket, by
`c52_ket_density_partial` for the density matrix). -/
theorem c52_violated (ho : ∀ l, (order l).Perm l) (T a : Arr ℂ) (dims : List Nat) (hbig : 2 ≤ dims.prod) (ha : MatOn dims a) :
    subspaceFid order T a dims [] = .error .typeError ∧
    subspaceFid order T a dims (List.range dims.length) = .error .typeError := by
  obtain ⟨h1, h2⟩ := c18_violated order ho a dims ha.wf ha.rows ha.cols (by omega)
  have hc : a.cols ≠ 1 := by rw [ha.cols]; omega
  constructor
  · unfold subspaceFid
    rw [leakDim_ok dims [] (by simp)]
    simp only [bind, Except.bind, squareState, hc, and_false, if_false]
    unfold sandwich
    rw [h1]
    rfl
  · unfold subspaceFid
    rw [leakDim_ok dims _ (fun k hk => List.mem_range.mp hk)]
    simp only [bind, Except.bind, squareState, hc, and_false, if_false]
    unfold sandwich
    rw [h2]
    rfl

/-- **C52** For a matrix the real part of the expectation value is returned, as long as its imaginary part is at most `1e-5`.
Otherwise the code means to print a warning and to return the absolute value, but it indexes a number: `IndexError`. -/
theorem c52_violated_complex {T a : Arr ℂ} (hT : BraOn order dims remove T) (ha : MatOn dims a) :
    ∃ z : ℂ, z = ∑ i ∈ Finset.range (removedDim dims remove), ∑ k ∈ Finset.range (keptDim order dims remove),
        (∑ j ∈ Finset.range (keptDim order dims remove),
          T.entry 0 j * a.entry (joinIdx dims (sortedRemove remove) (keepOf order dims.length remove) i j)
            (joinIdx dims (sortedRemove remove) (keepOf order dims.length remove) i k)) * star (T.entry 0 k) ∧
      (|z.im| ≤ 1 / 100000 → subspaceFid order T a dims remove = .ok z.re) ∧
      (1 / 100000 < |z.im| → subspaceFid order T a dims remove = .error .indexError) := by
  obtain ⟨sp, h1, h2, h3, h4⟩ := sandwich_closed ho hR hT ha
  have hc : a.cols ≠ 1 := by
    rw [ha.cols]
    have := hR.big
    omega
  have hn : ∀ z : ℂ, ‖z - (z.re : ℂ)‖ = |z.im| := by
    intro z
    have : z - (z.re : ℂ) = (z.im : ℂ) * Complex.I := by
      apply Complex.ext <;> simp
    rw [this, norm_mul, Complex.norm_I, mul_one, Complex.norm_real, Real.norm_eq_abs]
  have hF : subspaceFid order T a dims remove = realScalar sp := by
    unfold subspaceFid
    rw [leakDim_ok dims remove hR.lt]
    simp only [bind, Except.bind, squareState, hc, and_false, if_false]
    rw [h1]
  refine ⟨sp.entry 0 0, h4, fun h => ?_, fun h => ?_⟩
  · rw [hF, realScalar, if_pos ⟨h2, h3⟩, hn, if_neg (not_lt.mpr h)]
  · rw [hF, realScalar, if_pos ⟨h2, h3⟩, hn, if_pos h]

end

/-! ## Example: two qubits, the second one removed -/

theorem removal_two : Removal [2, 2] [1] := ⟨by simp, by simp, by simp, by simp, ⟨0, by simp, by simp⟩⟩

theorem keptDim_two : keptDim id [2, 2] [1] = 2 := by
  simp [keptDim, keepOf, sortedRemove, List.range_succ]

theorem removedDim_two : removedDim [2, 2] [1] = 2 := by
  simp [removedDim, sortedRemove]

theorem bra_two : BraOn id [2, 2] [1] (⟨1, 2, [1, 0]⟩ : Arr ℂ) := ⟨rfl, rfl, keptDim_two.symm⟩

/-- A Bell state (of squared norm 2). -/
example : subspaceFid id (⟨1, 2, [1, 0]⟩ : Arr ℂ) (⟨4, 1, [1, 0, 0, 1]⟩ : Arr ℂ) [2, 2] [1] = .ok 1 := by
  rw [subspaceFid_ket (order := id) (fun l => List.Perm.refl l) removal_two bra_two ⟨by simp [Arr.WF], by simp, rfl⟩]
  rw [removedDim_two]
  simp [braket, keptDim_two, Finset.sum_range_succ, Arr.entry, joinIdx, mergeIdx, sortedRemove, keepOf, List.range_succ, unravel, ravel]

/-- A matrix which is not Hermitian. -/
example : subspaceFid id (⟨1, 2, [1, 0]⟩ : Arr ℂ) (⟨4, 4, [Complex.I, 0, 0, 0, 0, 0, 0, 0, 0, 0, 0, 0, 0, 0, 0, 0]⟩ : Arr ℂ) [2, 2] [1] =
    .error .indexError := by
  obtain ⟨z, h1, -, h3⟩ := c52_violated_complex (order := id) (fun l => List.Perm.refl l) removal_two bra_two
    (a := ⟨4, 4, [Complex.I, 0, 0, 0, 0, 0, 0, 0, 0, 0, 0, 0, 0, 0, 0, 0]⟩) ⟨by simp [Arr.WF], by simp, by simp⟩
  refine h3 ?_
  rw [h1, removedDim_two]
  simp [keptDim_two, Finset.sum_range_succ, Arr.entry, joinIdx, mergeIdx, sortedRemove, keepOf, List.range_succ, unravel, ravel]
  norm_num

/-- First of four states. -/
def firstKet : Matrix (Fin [2, 2].prod) (Fin 1) ℂ := Matrix.of fun i _ => if i.val = 0 then 1 else 0

/-- One step with the identity as propagator and as derivative. -/
noncomputable def oneStep : Trace (Fin [2, 2].prod) (Fin 1) := ⟨[firstKet, firstKet], [[1]], [1, 1]⟩

example : ∃ g, subspaceGrad id (⟨1, 2, [1, 0]⟩ : Arr ℂ) [2, 2] [1] oneStep.fwd oneStep.dP oneStep.rev = .ok g ∧ Rect g 1 1 := by
  obtain ⟨g, h1, h2, -⟩ := c52_gradient_partial (order := id) (fun l => List.Perm.refl l) removal_two bra_two firstKet [1] 1 (by norm_num)
    oneStep
    ⟨⟨rfl, rfl, fun i hi => by
      have hi' : i = 0 := by rw [List.length_singleton] at hi; omega
      subst hi'
      exact ⟨firstKet, rfl, congrArg some (Matrix.one_mul _).symm⟩⟩, ⟨rfl, rfl, fun i hi => by
      have hi' : i = 0 := by rw [List.length_singleton] at hi; omega
      subst hi'
      exact ⟨1, rfl, congrArg some (Matrix.one_mul _).symm⟩⟩, ⟨rfl, fun row hrow => by
      rw [List.mem_singleton.mp hrow]⟩⟩
  exact ⟨g, h1, h2⟩

end Verif.Cost
