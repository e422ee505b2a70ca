import Mathlib.Algebra.BigOperators.Ring.Finset
import Mathlib.Algebra.Star.BigOperators
import Mathlib.Data.Nat.Sqrt
import Mathlib.Data.List.GetD
import Mathlib.Tactic.Ring
import Mathlib.Tactic.Linarith
import Verif.Py

/-!
# Two dimensional numpy arrays and the operator functions that only move or combine entries

An array is its shape and its elements in row major order, so `reshape` keeps the elements and changes
the shape, exactly as in numpy.  Scalars are elements of a commutative ring with conjugation `star`
(complex numbers; rounding is not modelled).
-/

namespace Verif.Operator
open Verif

/-- A two dimensional numpy array: the `data` attribute of a `DenseOperator` (matrix.py:698-715). -/
structure Arr (K : Type) where
  rows : Nat
  cols : Nat
  buf : List K
  deriving DecidableEq

namespace Arr
variable {K : Type}

/-- Shape and number of elements agree (every numpy array satisfies this). -/
def WF (a : Arr K) : Prop := a.buf.length = a.rows * a.cols

/-- `a[i, j]`. -/
def entry [Zero K] (a : Arr K) (i j : Nat) : K := a.buf.getD (i * a.cols + j) 0

/-- The array of shape `(r, c)` with entries `f i j`. -/
def ofFn (r c : Nat) (f : Nat → Nat → K) : Arr K :=
  ⟨r, c, (List.range (r * c)).map fun p => f (p / c) (p % c)⟩

/-- `a.T`. -/
def transpose [Zero K] (a : Arr K) : Arr K := ofFn a.cols a.rows fun i j => a.entry j i

/-- `a.reshape([r, c])`: `ValueError` if the number of elements differs. -/
def reshape (a : Arr K) (r c : Nat) : Except PyErr (Arr K) :=
  if a.buf.length = r * c then .ok ⟨r, c, a.buf⟩ else .error .valueError

/-- `np.conj(a)`, matrix.py:827-835. -/
def conj [Star K] (a : Arr K) : Arr K := ⟨a.rows, a.cols, a.buf.map star⟩

/-- Conjugate transpose, `dag` matrix.py:815-825. -/
def dag [Zero K] [Star K] (a : Arr K) : Arr K := a.conj.transpose

/-- `z * a`, matrix.py:733-737, 740-753. -/
def smul [Mul K] (z : K) (a : Arr K) : Arr K := ⟨a.rows, a.cols, a.buf.map (z * ·)⟩

/-- `a + b` for equal shapes, matrix.py:767-790; numpy raises `ValueError` for shapes that cannot be
broadcast.  Broadcasting of axes of length one is not modelled (reported as `ValueError` here). -/
def add [Add K] (a b : Arr K) : Except PyErr (Arr K) :=
  if a.rows = b.rows ∧ a.cols = b.cols then .ok ⟨a.rows, a.cols, List.zipWith (· + ·) a.buf b.buf⟩
  else .error .valueError

/-- `a @ b` (`np.matmul`), matrix.py:728-731: `ValueError` if the inner axes differ. -/
def matmul [Semiring K] (a b : Arr K) : Except PyErr (Arr K) :=
  if a.cols = b.rows then
    .ok (ofFn a.rows b.cols fun i j => ∑ k ∈ Finset.range a.cols, a.entry i k * b.entry k j)
  else .error .valueError

/-- `np.kron(a, b)`, matrix.py:961-970. -/
def kron [Semiring K] (a b : Arr K) : Arr K :=
  ofFn (a.rows * b.rows) (a.cols * b.cols) fun i j =>
    a.entry (i / b.rows) (j / b.cols) * b.entry (i % b.rows) (j % b.cols)

/-- `np.eye(n)`, `identity_like` matrix.py:1276-1279. -/
def eye (K : Type) [Zero K] [One K] (n : Nat) : Arr K := ofFn n n fun i j => if i = j then 1 else 0

/-- `tr`, matrix.py:870-872 (numpy traces non-square arrays over the shorter axis). -/
def trace [AddCommMonoid K] (a : Arr K) : K := ∑ i ∈ Finset.range (min a.rows a.cols), a.entry i i

end Arr

section
variable {K : Type}

/-- `ket_vectorize_density_matrix`, matrix.py:1355-1391.  The `DenseOperator` and the `np.ndarray` branch
compute the same array; other input types (`ValueError`) are not modelled. -/
def ketVectorize [Zero K] (m : Arr K) : Except PyErr (Arr K) :=
  if m.rows = m.cols then m.transpose.reshape m.buf.length 1 else .error .valueError

/-- `convert_ket_vectorized_density_matrix_to_square`, matrix.py:1394-1432; `int(np.sqrt(size))` is the
integer square root (exact in floating point below 2^52 elements). -/
def ketToSquare [Zero K] (v : Arr K) : Except PyErr (Arr K) :=
  if v.cols = 1 then do
    let d := Nat.sqrt v.buf.length
    let sq ← v.reshape d d
    pure sq.transpose
  else .error .valueError

/-- `convert_unitary_to_super_operator`, matrix.py:1314-1352 (`conj(U) ⊗ U`; other input types not
modelled). -/
def superOperator [Semiring K] [Star K] (u : Arr K) : Arr K := u.conj.kron u

end

namespace Arr
variable {K : Type}

theorem ofFn_wf (r c : Nat) (f : Nat → Nat → K) : (ofFn r c f).WF := by simp [WF, ofFn]

theorem index_lt {r c i j : Nat} (hi : i < r) (hj : j < c) : i * c + j < r * c := by
  calc i * c + j < i * c + c := by omega
    _ = (i + 1) * c := by ring
    _ ≤ r * c := Nat.mul_le_mul_right _ hi

theorem index_div {c i j : Nat} (hj : j < c) : (i * c + j) / c = i := by
  rw [Nat.mul_comm, Nat.mul_add_div (by omega), Nat.div_eq_of_lt hj, Nat.add_zero]

theorem index_mod {c i j : Nat} (hj : j < c) : (i * c + j) % c = j := by
  rw [Nat.add_comm, Nat.add_mul_mod_self_right, Nat.mod_eq_of_lt hj]

theorem entry_ofFn [Zero K] {r c : Nat} (f : Nat → Nat → K) {i j : Nat} (hi : i < r) (hj : j < c) :
    (ofFn r c f).entry i j = f i j := by
  have := index_lt hi hj
  simp only [entry, ofFn]
  rw [List.getD_eq_getElem _ _ (by simpa using this)]
  simp [index_div hj, index_mod hj]

theorem ext_entry [Zero K] {a b : Arr K} (ha : a.WF) (hb : b.WF) (hr : a.rows = b.rows)
    (hc : a.cols = b.cols) (h : ∀ i < a.rows, ∀ j < a.cols, a.entry i j = b.entry i j) : a = b := by
  obtain ⟨r, c, l⟩ := a
  obtain ⟨r', c', l'⟩ := b
  simp only at hr hc
  subst hr hc
  simp only [WF] at ha hb
  simp only [mk.injEq, true_and]
  apply List.ext_getElem (by rw [ha, hb])
  intro p hp hp'
  rw [ha] at hp
  have hc0 : 0 < c := by
    rcases Nat.eq_zero_or_pos c with h0 | h0
    · subst h0; simp at hp
    · exact h0
  have := h (p / c) (by show p / c < r; rw [Nat.div_lt_iff_lt_mul hc0]; exact hp) (p % c)
    (Nat.mod_lt _ hc0)
  simp only [entry] at this
  have e : p / c * c + p % c = p := by rw [Nat.mul_comm]; exact Nat.div_add_mod p c
  rw [e, List.getD_eq_getElem _ _ (by omega), List.getD_eq_getElem _ _ (by omega)] at this
  exact this

@[simp] theorem transpose_rows [Zero K] (a : Arr K) : a.transpose.rows = a.cols := rfl
@[simp] theorem transpose_cols [Zero K] (a : Arr K) : a.transpose.cols = a.rows := rfl
theorem transpose_wf [Zero K] (a : Arr K) : a.transpose.WF := ofFn_wf _ _ _
theorem entry_transpose [Zero K] (a : Arr K) {i j : Nat} (hi : i < a.cols) (hj : j < a.rows) :
    a.transpose.entry i j = a.entry j i := entry_ofFn _ hi hj

theorem transpose_transpose [Zero K] (a : Arr K) (ha : a.WF) : a.transpose.transpose = a :=
  ext_entry (transpose_wf _) ha rfl rfl fun i hi j hj => by
    have hi' : i < a.rows := hi
    have hj' : j < a.cols := hj
    rw [entry_transpose a.transpose hi' hj', entry_transpose a hj' hi']

@[simp] theorem conj_rows [Star K] (a : Arr K) : a.conj.rows = a.rows := rfl
@[simp] theorem conj_cols [Star K] (a : Arr K) : a.conj.cols = a.cols := rfl
theorem conj_wf [Star K] {a : Arr K} (ha : a.WF) : a.conj.WF := by simpa [WF, conj] using ha

theorem entry_map [Zero K] (a : Arr K) (f : K → K) (h0 : f 0 = 0) (i j : Nat) :
    (⟨a.rows, a.cols, a.buf.map f⟩ : Arr K).entry i j = f (a.entry i j) := by
  simp only [entry, List.getD_eq_getElem?_getD, List.getElem?_map]
  cases a.buf[i * a.cols + j]? <;> simp [h0]

theorem entry_conj [NonUnitalNonAssocSemiring K] [StarRing K] (a : Arr K) (i j : Nat) :
    a.conj.entry i j = star (a.entry i j) := entry_map a star (star_zero _) i j

theorem entry_smul [Semiring K] (z : K) (a : Arr K) (i j : Nat) : (a.smul z).entry i j = z * a.entry i j :=
  entry_map a (z * ·) (mul_zero z) i j

theorem smul_wf [Mul K] (z : K) {a : Arr K} (ha : a.WF) : (a.smul z).WF := by simpa [WF, smul] using ha

@[simp] theorem dag_rows [Zero K] [Star K] (a : Arr K) : a.dag.rows = a.cols := rfl
@[simp] theorem dag_cols [Zero K] [Star K] (a : Arr K) : a.dag.cols = a.rows := rfl
theorem dag_wf [Zero K] [Star K] (a : Arr K) : a.dag.WF := transpose_wf _
theorem entry_dag [NonUnitalNonAssocSemiring K] [StarRing K] (a : Arr K) {i j : Nat} (hi : i < a.cols)
    (hj : j < a.rows) : a.dag.entry i j = star (a.entry j i) := by
  rw [dag, entry_transpose a.conj hi hj, entry_conj]

section
variable [CommSemiring K]

theorem matmul_ok {a b : Arr K} (h : a.cols = b.rows) : a.matmul b =
    .ok (ofFn a.rows b.cols fun i j => ∑ k ∈ Finset.range a.cols, a.entry i k * b.entry k j) := by
  rw [matmul, if_pos h]

theorem matmul_spec {a b : Arr K} (h : a.cols = b.rows) : ∃ w, a.matmul b = .ok w ∧ w.WF ∧ w.rows = a.rows ∧
    w.cols = b.cols ∧ ∀ i < a.rows, ∀ j < b.cols,
      w.entry i j = ∑ k ∈ Finset.range a.cols, a.entry i k * b.entry k j :=
  ⟨_, matmul_ok h, ofFn_wf _ _ _, rfl, rfl, fun _ hi _ hj => entry_ofFn _ hi hj⟩

theorem kron_wf (a b : Arr K) : (a.kron b).WF := ofFn_wf _ _ _
@[simp] theorem kron_rows (a b : Arr K) : (a.kron b).rows = a.rows * b.rows := rfl
@[simp] theorem kron_cols (a b : Arr K) : (a.kron b).cols = a.cols * b.cols := rfl

theorem entry_kron (a b : Arr K) {i j k l : Nat} (hi : i < a.rows) (hj : j < b.rows) (hk : k < a.cols)
    (hl : l < b.cols) : (a.kron b).entry (i * b.rows + j) (k * b.cols + l) = a.entry i k * b.entry j l := by
  rw [kron, entry_ofFn _ (index_lt hi hj) (index_lt hk hl), index_div hj, index_div hl, index_mod hj,
    index_mod hl]

/-- Every position below `r * c` is `i * c + j`. -/
theorem exists_index {r c p : Nat} (h : p < r * c) : ∃ i j, i < r ∧ j < c ∧ p = i * c + j := by
  have hc0 : 0 < c := by
    rcases Nat.eq_zero_or_pos c with h0 | h0
    · subst h0; simp at h
    · exact h0
  refine ⟨p / c, p % c, ?_, Nat.mod_lt _ hc0, ?_⟩
  · rw [Nat.div_lt_iff_lt_mul hc0]; exact h
  · rw [Nat.mul_comm]; exact (Nat.div_add_mod p c).symm

/-- A sum over a flattened pair of axes is a double sum. -/
theorem sum_range_mul {M : Type} [AddCommMonoid M] (r c : Nat) (f : Nat → M) :
    ∑ p ∈ Finset.range (r * c), f p = ∑ i ∈ Finset.range r, ∑ j ∈ Finset.range c, f (i * c + j) := by
  induction r with
  | zero => simp
  | succ r ih =>
    rw [Finset.sum_range_succ, ← ih, Nat.succ_mul, Finset.sum_range_add]

end

end Arr
end Verif.Operator
