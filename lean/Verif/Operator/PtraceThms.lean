import Verif.Operator.PtraceLemmas
import Mathlib.Data.Complex.Basic

/-!
# Property theorems C18: the partial trace

Specification: the rows and columns of the matrix are multi-indices (one index per subsystem).  `Split`
says that the removed and kept subsystems partition all subsystems.  The order in which the kept
subsystems appear in the result is the iteration order `order` of a Python set.
-/

namespace Verif.Operator
open Verif

section
variable {K : Type} [CommRing K] [StarRing K]

/-- The situation of the positive theorems: a square matrix of the right size (not 1×1) and a list of
distinct subsystems to remove that is neither empty nor everything. -/
structure Traceable (a : Arr K) (dims remove : List Nat) : Prop where
  wf : a.WF
  rows : a.rows = dims.prod
  cols : a.cols = dims.prod
  big : dims.prod ≠ 1
  nodup : remove.Nodup
  lt : ∀ k ∈ remove, k < dims.length
  ne : remove ≠ []
  proper : ∃ k < dims.length, k ∉ remove

theorem Traceable.keep_ne {a : Arr K} {dims remove : List Nat} (T : Traceable a dims remove)
    {order : List Nat → List Nat} (ho : ∀ l, (order l).Perm l) : keepOf order dims.length remove ≠ [] := by
  obtain ⟨k, hk, hn⟩ := T.proper
  have : k ∈ keepOf order dims.length remove := by
    rw [keepOf, (ho _).mem_iff]
    simp [List.mem_filter, hk, (sortedRemove_perm remove).mem_iff, hn]
  exact List.ne_nil_of_mem this

theorem Traceable.sorted_ne {a : Arr K} {dims remove : List Nat} (T : Traceable a dims remove) :
    sortedRemove remove ≠ [] := by
  intro h
  have := sortedRemove_perm remove
  rw [h] at this
  exact T.ne (List.nil_perm.mp this)

/-- Dimension of the kept part. -/
def keptDim (order : List Nat → List Nat) (dims remove : List Nat) : Nat :=
  ((keepOf order dims.length remove).map fun k => dims.getD k 0).prod

theorem ptrace_closed (order : List Nat → List Nat) (ho : ∀ l, (order l).Perm l) {a : Arr K}
    {dims remove : List Nat} (T : Traceable a dims remove) :
    ptrace order a dims remove = .ok (Arr.ofFn (keptDim order dims remove) (keptDim order dims remove)
      fun j k => ∑ i ∈ Finset.range ((sortedRemove remove).map fun k => dims.getD k 0).prod,
          a.entry (joinIdx dims (sortedRemove remove) (keepOf order dims.length remove) i j)
            (joinIdx dims (sortedRemove remove) (keepOf order dims.length remove) i k)) := by
  rw [ptrace_square order a dims remove T.rows (by rw [T.cols]; exact T.big) T.lt]
  exact traceOut_closed a dims _ _ T.wf T.rows T.cols (split_of order ho _ _ T.nodup T.lt) T.sorted_ne
    (T.keep_ne ho)

/-- **C18** (partial: removing nothing or everything is excluded, see `c18_violated`) The partial trace
succeeds, returns a square matrix on the kept subsystems and keeps the total trace. -/
theorem c18_trace_partial (order : List Nat → List Nat) (ho : ∀ l, (order l).Perm l) {a : Arr K}
    {dims remove : List Nat} (T : Traceable a dims remove) :
    ∃ r, ptrace order a dims remove = .ok r ∧ r.WF ∧ r.rows = keptDim order dims remove ∧
      r.cols = keptDim order dims remove ∧ r.trace = a.trace := by
  refine ⟨_, ptrace_closed order ho T, Arr.ofFn_wf _ _ _, rfl, rfl, ?_⟩
  rw [Arr.trace, Arr.trace, T.rows, T.cols, min_self]
  show ∑ j ∈ Finset.range (min (keptDim order dims remove) (keptDim order dims remove)), _ = _
  rw [min_self, ← sum_join (split_of order ho _ _ T.nodup T.lt) fun p => a.entry p p]
  refine Finset.sum_congr rfl fun j hj => ?_
  have hj' : j < keptDim order dims remove := Finset.mem_range.mp hj
  rw [Arr.entry_ofFn _ hj' hj']

/-- **C18** Linearity: the partial trace of `z a + b` is `z` times that of `a` plus that of `b`. -/
theorem c18_linear_partial (order : List Nat → List Nat) (ho : ∀ l, (order l).Perm l) {a b : Arr K}
    {dims remove : List Nat} (Ta : Traceable a dims remove) (Tb : Traceable b dims remove) (z : K) :
    ∃ c ra rb rc, (a.smul z).add b = .ok c ∧ ptrace order a dims remove = .ok ra ∧
      ptrace order b dims remove = .ok rb ∧ ptrace order c dims remove = .ok rc ∧
      (ra.smul z).add rb = .ok rc := by
  have hshape : (a.smul z).rows = b.rows ∧ (a.smul z).cols = b.cols := by
    constructor
    · show a.rows = b.rows; rw [Ta.rows, Tb.rows]
    · show a.cols = b.cols; rw [Ta.cols, Tb.cols]
  have hentry : ∀ (x y : Arr K), x.WF → y.WF → x.rows = y.rows → x.cols = y.cols → ∀ i < x.rows, ∀ j < x.cols,
      (⟨x.rows, x.cols, List.zipWith (· + ·) x.buf y.buf⟩ : Arr K).entry i j = x.entry i j + y.entry i j := by
    intro x y hx hy h1 h2 i hi j hj
    have hlt := Arr.index_lt hi hj
    have l1 : i * x.cols + j < x.buf.length := by rw [hx]; exact hlt
    have l2 : i * y.cols + j < y.buf.length := by rw [hy, ← h1, ← h2]; exact hlt
    simp only [Arr.entry]
    rw [← h2] at l2 ⊢
    rw [List.getD_eq_getElem _ _ (by simp [l1, l2]), List.getD_eq_getElem _ _ l1,
      List.getD_eq_getElem _ _ l2, List.getElem_zipWith]
  have haddwf : ∀ (x y : Arr K), x.WF → y.WF → x.rows = y.rows → x.cols = y.cols →
      (⟨x.rows, x.cols, List.zipWith (· + ·) x.buf y.buf⟩ : Arr K).WF := by
    intro x y hx hy h1 h2
    simp only [Arr.WF, List.length_zipWith]
    rw [hx, hy, ← h1, ← h2, min_self]
  have Tc : Traceable (⟨(a.smul z).rows, (a.smul z).cols, List.zipWith (· + ·) (a.smul z).buf b.buf⟩ : Arr K)
      dims remove :=
    ⟨haddwf _ _ (Arr.smul_wf z Ta.wf) Tb.wf hshape.1 hshape.2, Ta.rows, Ta.cols, Ta.big, Ta.nodup, Ta.lt,
      Ta.ne, Ta.proper⟩
  refine ⟨_, _, _, _, by rw [Arr.add, if_pos hshape], ptrace_closed order ho Ta, ptrace_closed order ho Tb,
    ptrace_closed order ho Tc, ?_⟩
  rw [Arr.add, if_pos ⟨rfl, rfl⟩]
  simp only [Except.ok.injEq]
  refine Arr.ext_entry (haddwf _ _ (Arr.smul_wf z (Arr.ofFn_wf _ _ _)) (Arr.ofFn_wf _ _ _) rfl rfl)
    (Arr.ofFn_wf _ _ _) rfl rfl ?_
  intro j hj k hk
  have hj' : j < keptDim order dims remove := hj
  have hk' : k < keptDim order dims remove := hk
  refine Eq.trans (hentry _ _ (Arr.smul_wf z (Arr.ofFn_wf _ _ _)) (Arr.ofFn_wf _ _ _) rfl rfl j ?_ k ?_) ?_
  · exact hj'
  · exact hk'
  rw [Arr.entry_smul]
  change z * (Arr.ofFn (keptDim order dims remove) (keptDim order dims remove) _).entry j k +
    (Arr.ofFn (keptDim order dims remove) (keptDim order dims remove) _).entry j k = _
  rw [Arr.entry_ofFn _ hj' hk', Arr.entry_ofFn _ hj' hk', Arr.entry_ofFn _ hj' hk', Finset.mul_sum,
    ← Finset.sum_add_distrib]
  refine Finset.sum_congr rfl fun i hi => ?_
  have hs := split_of order ho dims.length remove Ta.nodup Ta.lt
  have h1 := joinIdx_lt hs (Finset.mem_range.mp hi) hj'
  have h2 := joinIdx_lt hs (Finset.mem_range.mp hi) hk'
  rw [← Ta.rows] at h1
  rw [← Ta.cols] at h2
  rw [hentry _ _ (Arr.smul_wf z Ta.wf) Tb.wf hshape.1 hshape.2 _ h1 _ h2, Arr.entry_smul]

/-- **C18** The result does not depend on the order in which the removed subsystems are listed. -/
theorem c18_order_independent (order : List Nat → List Nat) (a : Arr K) (dims remove remove' : List Nat)
    (h : remove.Perm remove') : ptrace order a dims remove = ptrace order a dims remove' := by
  have : sortedRemove remove = sortedRemove remove' := by
    have p : (sortedRemove remove).Perm (sortedRemove remove') :=
      (sortedRemove_perm _).trans (h.trans (sortedRemove_perm _).symm)
    have s : ∀ l : List Nat, (sortedRemove l).Pairwise (· ≤ ·) := by
      intro l
      have := List.pairwise_mergeSort (le := fun a b : Nat => decide (a ≤ b))
        (by intro a b c; simp only [decide_eq_true_eq]; omega)
        (by intro a b; simp only [Bool.or_eq_true, decide_eq_true_eq]; omega) l
      simpa [sortedRemove] using this
    exact p.eq_of_pairwise (fun a b _ _ h1 h2 => Nat.le_antisymm h1 h2) (s _) (s _)
  simp only [ptrace, keepOf, this]

/-- **C18** A matrix whose dimension does not match the subsystem dimensions is rejected. -/
theorem c18_rejects (order : List Nat → List Nat) (a : Arr K) (dims remove : List Nat)
    (h : a.rows ≠ dims.prod) : ptrace order a dims remove = .error .assertionError := by
  by_cases hc : a.cols = 1
  · obtain ⟨w, hw, -, hr, -⟩ := Arr.matmul_spec (a := a) (b := a.dag) (by simp)
    simp only [ptrace, hc, if_true, hw, bind, Except.bind]
    rw [if_pos (by rw [hr]; exact h)]
  · simp only [ptrace, if_neg hc, pure, Except.pure, bind, Except.bind]
    rw [if_pos h]

/-- **C18** A ket is treated as its density matrix. -/
theorem c18_ket (order : List Nat → List Nat) (a : Arr K) (dims remove : List Nat) (hc : a.cols = 1)
    (hr : a.rows ≠ 1) :
    ∃ ρ, a.matmul a.dag = .ok ρ ∧ ptrace order a dims remove = ptrace order ρ dims remove := by
  obtain ⟨w, hw, -, hwr, hwc, -⟩ := Arr.matmul_spec (a := a) (b := a.dag) (by simp)
  refine ⟨w, hw, ?_⟩
  have : w.cols ≠ 1 := by rw [hwc]; exact hr
  simp only [ptrace, hc, if_true, hw, bind, Except.bind, if_neg this, pure, Except.pure]

theorem sortedRemove_of_sorted {l : List Nat} (h : l.Pairwise (· ≤ ·)) : sortedRemove l = l := by
  refine List.mergeSort_of_pairwise (le := fun a b : Nat => decide (a ≤ b)) ?_
  exact h.imp (by simp)

theorem map_getD_range (l m : List Nat) : (List.range l.length).map (fun k => (l ++ m).getD k 0) = l := by
  apply List.ext_getElem (by simp)
  intro k h1 h2
  rw [List.getElem_map, List.getElem_range, getD_append_left' _ _ _ h2, List.getD_eq_getElem _ _ h2]

theorem map_getD_range' (l m : List Nat) :
    ((List.range m.length).map (l.length + ·)).map (fun k => (l ++ m).getD k 0) = m := by
  apply List.ext_getElem (by simp)
  intro k h1 h2
  rw [List.getElem_map, List.getElem_map, List.getElem_range, getD_append_right',
    List.getD_eq_getElem _ _ h2]

theorem unravel_map_getD (s : List Nat) (p : Nat) :
    (List.range s.length).map (fun k => (unravel s p).getD k 0) = unravel s p := by
  apply List.ext_getElem (by simp [unravel_length])
  intro k h1 h2
  rw [List.getElem_map, List.getElem_range, List.getD_eq_getElem _ _ h2]

theorem idxOf_range {n a : Nat} (h : a < n) : (List.range n).idxOf a = a := by
  have := List.Nodup.idxOf_getElem (List.nodup_range (n := n)) a (by simpa using h)
  simpa using this

/-- **C18** `Tr_A (A ⊗ B) = tr(A) B`: the first subsystems (`dA`, any number of them) are removed.  The
set iteration order is ascending here. -/
theorem c18_first_factor_partial (dA dB remove : List Nat) (A B : Arr K) (hA : A.rows = dA.prod)
    (hA' : A.cols = dA.prod) (hB : B.WF ∧ B.rows = dB.prod ∧ B.cols = dB.prod)
    (hrm : remove.Perm (List.range dA.length)) (h1 : dA ≠ []) (h2 : dB ≠ []) (hbig : (dA ++ dB).prod ≠ 1) :
    ptrace id (A.kron B) (dA ++ dB) remove = .ok (B.smul A.trace) := by
  obtain ⟨hBw, hBr, hBc⟩ := hB
  have hn : (dA ++ dB).length = dA.length + dB.length := List.length_append
  rw [c18_order_independent id _ _ _ _ hrm]
  have T : Traceable (A.kron B) (dA ++ dB) (List.range dA.length) := by
    refine ⟨Arr.kron_wf _ _, by rw [Arr.kron_rows, hA, hBr, List.prod_append],
      by rw [Arr.kron_cols, hA', hBc, List.prod_append], hbig, List.nodup_range, ?_, ?_, dA.length, ?_, ?_⟩
    · intro k hk; rw [hn]; have := List.mem_range.mp hk; omega
    · simp [h1]
    · rw [hn]; have := List.length_pos_iff.mpr h2; omega
    · simp
  rw [ptrace_closed id (fun l => List.Perm.refl _) T]
  have hso : sortedRemove (List.range dA.length) = List.range dA.length :=
    sortedRemove_of_sorted (List.pairwise_lt_range.imp Nat.le_of_lt)
  have hke : keepOf id (dA ++ dB).length (List.range dA.length) = (List.range dB.length).map (dA.length + ·) := by
    rw [keepOf, hso, hn, id, List.range_add, List.filter_append]
    have e1 : (List.range dA.length).filter (fun k => !(List.range dA.length).contains k) = [] := by
      rw [List.filter_eq_nil_iff]
      intro k hk
      simpa using hk
    have e2 : ((List.range dB.length).map (dA.length + ·)).filter
        (fun k => !(List.range dA.length).contains k) = (List.range dB.length).map (dA.length + ·) := by
      rw [List.filter_eq_self]
      intro k hk
      obtain ⟨j, -, rfl⟩ := List.mem_map.mp hk
      simp
    rw [e1, e2, List.nil_append]
  have hkd : keptDim id (dA ++ dB) (List.range dA.length) = dB.prod := by
    rw [keptDim, hke, map_getD_range']
  have hrd : (sortedRemove (List.range dA.length)).map (fun k => (dA ++ dB).getD k 0) = dA := by
    rw [hso, map_getD_range]
  have hjoin : ∀ i j, i < dA.prod → j < dB.prod → joinIdx (dA ++ dB) (sortedRemove (List.range dA.length))
      (keepOf id (dA ++ dB).length (List.range dA.length)) i j = i * dB.prod + j := by
    intro i j hi hj
    rw [joinIdx, hrd, hke, map_getD_range', hso, hn, mergeIdx, List.range_add, List.map_append]
    have e1 : (List.range dA.length).map (fun a => if a ∈ List.range dA.length then
        (unravel dA i).getD ((List.range dA.length).idxOf a) 0
        else (unravel dB j).getD (((List.range dB.length).map (dA.length + ·)).idxOf a) 0)
        = unravel dA i := by
      rw [← unravel_map_getD dA i]
      refine List.map_congr_left fun a ha => ?_
      rw [if_pos ha, idxOf_range (List.mem_range.mp ha), unravel_map_getD]
    have e2 : ((List.range dB.length).map (dA.length + ·)).map (fun a => if a ∈ List.range dA.length then
        (unravel dA i).getD ((List.range dA.length).idxOf a) 0
        else (unravel dB j).getD (((List.range dB.length).map (dA.length + ·)).idxOf a) 0)
        = unravel dB j := by
      rw [← unravel_map_getD dB j, List.map_map]
      refine List.map_congr_left fun a ha => ?_
      simp only [Function.comp]
      rw [if_neg (by simp), idxOf_map_add, idxOf_range (List.mem_range.mp ha), unravel_map_getD]
    rw [e1, e2, ravel_append _ _ _ _ (unravel_length _ _), ravel_unravel _ _ hi, ravel_unravel _ _ hj]
  simp only [Except.ok.injEq]
  rw [hkd, hrd]
  refine Arr.ext_entry (Arr.ofFn_wf _ _ _) (Arr.smul_wf _ hBw) hBr.symm hBc.symm ?_
  intro j hj k hk
  have hj' : j < dB.prod := hj
  have hk' : k < dB.prod := hk
  rw [Arr.entry_ofFn _ hj' hk', Arr.entry_smul, Arr.trace, hA, hA', min_self, Finset.sum_mul]
  refine Finset.sum_congr rfl fun i hi => ?_
  have hi' := Finset.mem_range.mp hi
  rw [hjoin i j hi' hj', hjoin i k hi' hk']
  have := Arr.entry_kron A B (i := i) (j := j) (k := i) (l := k) (by omega) (by omega) (by omega) (by omega)
  rwa [hBr, hBc] at this

/-- **C18** `Tr_B (A ⊗ B) = tr(B) A`: the last subsystems are removed. -/
theorem c18_second_factor_partial (dA dB remove : List Nat) (A B : Arr K) (hA : A.WF ∧ A.rows = dA.prod ∧
    A.cols = dA.prod) (hBr : B.rows = dB.prod) (hBc : B.cols = dB.prod)
    (hrm : remove.Perm ((List.range dB.length).map (dA.length + ·))) (h1 : dA ≠ []) (h2 : dB ≠ [])
    (hbig : (dA ++ dB).prod ≠ 1) :
    ptrace id (A.kron B) (dA ++ dB) remove = .ok (A.smul B.trace) := by
  obtain ⟨hAw, hAr, hAc⟩ := hA
  have hn : (dA ++ dB).length = dA.length + dB.length := List.length_append
  rw [c18_order_independent id _ _ _ _ hrm]
  set rm := (List.range dB.length).map (dA.length + ·) with hrmdef
  have hrmnd : rm.Nodup := List.Nodup.map (fun a b h => by simpa using h) List.nodup_range
  have hnotin : ∀ a < dA.length, a ∉ rm := by
    intro a ha hm
    obtain ⟨b, -, hb⟩ := List.mem_map.mp hm
    omega
  have T : Traceable (A.kron B) (dA ++ dB) rm := by
    refine ⟨Arr.kron_wf _ _, by rw [Arr.kron_rows, hAr, hBr, List.prod_append],
      by rw [Arr.kron_cols, hAc, hBc, List.prod_append], hbig, hrmnd, ?_, ?_, 0, ?_, ?_⟩
    · intro k hk
      obtain ⟨b, hb, rfl⟩ := List.mem_map.mp hk
      rw [hn]; have := List.mem_range.mp hb; omega
    · simp [hrmdef, h2]
    · rw [hn]; have := List.length_pos_iff.mpr h1; omega
    · exact hnotin 0 (List.length_pos_iff.mpr h1)
  rw [ptrace_closed id (fun l => List.Perm.refl _) T]
  have hso : sortedRemove rm = rm := by
    refine sortedRemove_of_sorted ?_
    rw [hrmdef, List.pairwise_map]
    exact List.pairwise_lt_range.imp (by omega)
  have hke : keepOf id (dA ++ dB).length rm = List.range dA.length := by
    rw [keepOf, hso, hn, id, List.range_add, List.filter_append]
    have e1 : (List.range dA.length).filter (fun k => !rm.contains k) = List.range dA.length := by
      rw [List.filter_eq_self]
      intro k hk
      simpa using hnotin k (List.mem_range.mp hk)
    have e2 : ((List.range dB.length).map (dA.length + ·)).filter (fun k => !rm.contains k) = [] := by
      rw [List.filter_eq_nil_iff]
      intro k hk
      simpa [hrmdef] using hk
    rw [e1, e2, List.append_nil]
  have hkd : keptDim id (dA ++ dB) rm = dA.prod := by
    rw [keptDim, hke, map_getD_range]
  have hrd : (sortedRemove rm).map (fun k => (dA ++ dB).getD k 0) = dB := by
    rw [hso, hrmdef, map_getD_range']
  have hjoin : ∀ i j, i < dB.prod → j < dA.prod → joinIdx (dA ++ dB) (sortedRemove rm)
      (keepOf id (dA ++ dB).length rm) i j = j * dB.prod + i := by
    intro i j hi hj
    rw [joinIdx, hrd, hke, map_getD_range, hso, hn, mergeIdx, List.range_add, List.map_append]
    have e1 : (List.range dA.length).map (fun a => if a ∈ rm then (unravel dB i).getD (rm.idxOf a) 0
        else (unravel dA j).getD ((List.range dA.length).idxOf a) 0) = unravel dA j := by
      rw [← unravel_map_getD dA j]
      refine List.map_congr_left fun a ha => ?_
      rw [if_neg (hnotin a (List.mem_range.mp ha)), idxOf_range (List.mem_range.mp ha), unravel_map_getD]
    have e2 : ((List.range dB.length).map (dA.length + ·)).map (fun a => if a ∈ rm then
        (unravel dB i).getD (rm.idxOf a) 0
        else (unravel dA j).getD ((List.range dA.length).idxOf a) 0) = unravel dB i := by
      rw [← unravel_map_getD dB i, List.map_map]
      refine List.map_congr_left fun a ha => ?_
      simp only [Function.comp]
      rw [if_pos (List.mem_map.mpr ⟨a, ha, rfl⟩), hrmdef, idxOf_map_add, idxOf_range (List.mem_range.mp ha),
        unravel_map_getD]
    rw [e1, e2, ravel_append _ _ _ _ (unravel_length _ _), ravel_unravel _ _ hi, ravel_unravel _ _ hj]
  simp only [Except.ok.injEq]
  rw [hkd, hrd]
  refine Arr.ext_entry (Arr.ofFn_wf _ _ _) (Arr.smul_wf _ hAw) hAr.symm hAc.symm ?_
  intro j hj k hk
  have hj' : j < dA.prod := hj
  have hk' : k < dA.prod := hk
  rw [Arr.entry_ofFn _ hj' hk', Arr.entry_smul, Arr.trace, hBr, hBc, min_self, Finset.sum_mul]
  refine Finset.sum_congr rfl fun i hi => ?_
  have hi' := Finset.mem_range.mp hi
  rw [hjoin i j hi' hj', hjoin i k hi' hk']
  have := Arr.entry_kron A B (i := j) (j := i) (k := k) (l := i) (by omega) (by omega) (by omega) (by omega)
  rw [hBr, hBc] at this
  rw [this, mul_comm]

/-- Entry `(p, q)` of a product of single-subsystem matrices `M 0 ⊗ M 1 ⊗ …`. -/
def productEntry (dims : List Nat) (M : Nat → Nat → Nat → K) (p q : Nat) : K :=
  ((List.range dims.length).map fun a => M a ((unravel dims p).getD a 0) ((unravel dims q).getD a 0)).prod

theorem sum_product_range (ds : List Nat) (g : Nat → Nat → K) :
    ∑ i ∈ Finset.range ds.prod, ((List.range ds.length).map fun k => g k ((unravel ds i).getD k 0)).prod
      = ((List.range ds.length).map fun k => ∑ x ∈ Finset.range (ds.getD k 0), g k x).prod := by
  induction ds generalizing g with
  | nil => simp
  | cons d ds ih =>
    rw [List.prod_cons, Arr.sum_range_mul, List.length_cons, List.range_succ_eq_map]
    simp only [List.map_cons, List.prod_cons, List.map_map, List.getD_cons_zero, Finset.sum_mul]
    refine Finset.sum_congr rfl fun x hx => ?_
    have ih' := ih fun k => g (k + 1)
    have e : (List.map ((fun k => ∑ x ∈ Finset.range ((d :: ds).getD k 0), g k x) ∘ Nat.succ)
        (List.range ds.length)) = List.map (fun k => ∑ x ∈ Finset.range (ds.getD k 0), g (k + 1) x)
        (List.range ds.length) := rfl
    rw [e, ← ih', Finset.mul_sum]
    refine Finset.sum_congr rfl fun y hy => ?_
    have hy' := Finset.mem_range.mp hy
    simp only [unravel]
    rw [Arr.index_div hy', Arr.index_mod hy', List.getD_cons_zero]
    rfl

/-- **C18** For a product of single-subsystem matrices, any set of subsystems may be removed: the result is
the product of their traces times the product of the remaining factors. -/
theorem c18_product_partial (order : List Nat → List Nat) (ho : ∀ l, (order l).Perm l) {a : Arr K}
    {dims remove : List Nat} (T : Traceable a dims remove) (M : Nat → Nat → Nat → K)
    (ha : ∀ p < dims.prod, ∀ q < dims.prod, a.entry p q = productEntry dims M p q) :
    ∃ r, ptrace order a dims remove = .ok r ∧
      ∀ j < keptDim order dims remove, ∀ k < keptDim order dims remove,
        r.entry j k = (remove.map fun b => ∑ x ∈ Finset.range (dims.getD b 0), M b x x).prod *
          productEntry ((keepOf order dims.length remove).map fun b => dims.getD b 0)
            (fun i => M ((keepOf order dims.length remove).getD i 0)) j k := by
  refine ⟨_, ptrace_closed order ho T, fun j hj k hk => ?_⟩
  rw [Arr.entry_ofFn _ hj hk]
  have hs := split_of order ho dims.length remove T.nodup T.lt
  have hp := sortedRemove_perm remove
  rw [← (hp.map fun b => ∑ x ∈ Finset.range (dims.getD b 0), M b x x).prod_eq]
  set rm := sortedRemove remove
  set keep := keepOf order dims.length remove
  have hterm : ∀ i ∈ Finset.range (rm.map fun k => dims.getD k 0).prod,
      a.entry (joinIdx dims rm keep i j) (joinIdx dims rm keep i k)
        = ((List.range (rm.map fun k => dims.getD k 0).length).map fun l =>
            (fun l x => M (rm.getD l 0) x x) l ((unravel (rm.map fun k => dims.getD k 0) i).getD l 0)).prod *
          productEntry (keep.map fun b => dims.getD b 0) (fun i => M (keep.getD i 0)) j k := by
    intro i hi
    have hi' := Finset.mem_range.mp hi
    rw [ha _ (joinIdx_lt hs hi' hj) _ (joinIdx_lt hs hi' hk), productEntry,
      ← (hs.perm.map _).prod_eq, List.map_append, List.prod_append, productEntry]
    have s1 := inShape_mergeIdx hs rfl (inShape_unravel _ _ hi') (inShape_unravel _ _ hj)
    have s2 := inShape_mergeIdx hs rfl (inShape_unravel _ _ hi') (inShape_unravel _ _ hk)
    congr 1
    · congr 1
      apply List.ext_getElem (by simp)
      intro l h1 h2
      have hl : l < rm.length := by simpa using h1
      have hmem := List.getElem_mem hl
      have hlt := (hs.mem _).mp (Or.inl hmem)
      simp only [List.getElem_map, List.getElem_range]
      simp only [joinIdx]
      rw [unravel_ravel _ _ s1, unravel_ravel _ _ s2, mergeIdx_getD _ _ _ _ _ _ hlt,
        mergeIdx_getD _ _ _ _ _ _ hlt, if_pos hmem, if_pos hmem, List.Nodup.idxOf_getElem hs.rm_nodup,
        List.getD_eq_getElem _ _ hl]
    · congr 1
      apply List.ext_getElem (by simp)
      intro l h1 h2
      have hl : l < keep.length := by simpa using h1
      have hmem := List.getElem_mem hl
      have hlt := (hs.mem _).mp (Or.inr hmem)
      simp only [List.getElem_map, List.getElem_range]
      simp only [joinIdx]
      rw [unravel_ravel _ _ s1, unravel_ravel _ _ s2, mergeIdx_getD _ _ _ _ _ _ hlt,
        mergeIdx_getD _ _ _ _ _ _ hlt, if_neg (fun h => hs.not_both h hmem),
        if_neg (fun h => hs.not_both h hmem), List.Nodup.idxOf_getElem hs.keep_nodup,
        List.getD_eq_getElem _ _ hl]
  rw [Finset.sum_congr rfl hterm, ← Finset.sum_mul]
  refine congrArg (· * _) ((sum_product_range (rm.map fun k => dims.getD k 0)
    fun l x => M (rm.getD l 0) x x).trans ?_)
  congr 1
  apply List.ext_getElem (by simp)
  intro l h1 h2
  have hl : l < rm.length := by simpa using h1
  simp only [List.getElem_map, List.getElem_range]
  rw [getD_map _ _ _ hl, List.getD_eq_getElem _ _ hl]

/-- **C18 violated**: removing no subsystem (which should return the matrix) or all subsystems (which
should return the trace) raises `TypeError`, for every matrix of the right size. -/
theorem c18_violated (order : List Nat → List Nat) (ho : ∀ l, (order l).Perm l) (a : Arr K) (dims : List Nat)
    (hw : a.WF) (hr : a.rows = dims.prod) (hc : a.cols = dims.prod) (hbig : dims.prod ≠ 1) :
    ptrace order a dims [] = .error .typeError ∧
    ptrace order a dims (List.range dims.length) = .error .typeError := by
  have hbl : a.buf.length = (dims ++ dims).prod := by rw [hw, hr, hc, List.prod_append]
  have key : ∀ rm keep, Split dims.length rm keep → rm = [] ∨ keep = [] →
      traceOut a dims rm keep = .error .typeError := by
    intro rm keep hs h
    simp only [traceOut, NdArr.reshape, hbl, if_true, bind, Except.bind, NdArr.transpose,
      List.length_append]
    rw [if_pos (axes_perm hs)]
    simp only [List.map_eq_nil_iff]
    rw [if_pos h]
  constructor
  · rw [ptrace_square order a dims [] hr (by rw [hc]; exact hbig) (by simp)]
    exact key _ _ (split_of order ho _ _ List.nodup_nil (by simp)) (Or.inl (by simp [sortedRemove]))
  · have hlt : ∀ k ∈ List.range dims.length, k < dims.length := fun k hk => List.mem_range.mp hk
    rw [ptrace_square order a dims _ hr (by rw [hc]; exact hbig) hlt]
    refine key _ _ (split_of order ho _ _ List.nodup_range hlt) (Or.inr ?_)
    rw [keepOf]
    have : (List.range dims.length).filter (fun k => !(sortedRemove (List.range dims.length)).contains k)
        = [] := by
      rw [List.filter_eq_nil_iff]
      intro k hk
      simp [(sortedRemove_perm _).mem_iff, List.mem_range.mp hk]
    rw [this]
    exact List.perm_nil.mp (ho [])

/-- **C18 violated** for one dimensional systems: a 1×1 matrix is taken for a ket and squared. -/
theorem c18_violated_one_dim : ∃ r, ptrace id (⟨1, 1, [2]⟩ : Arr ℂ) [1, 1] [0] = .ok r ∧
    r.trace ≠ (⟨1, 1, [2]⟩ : Arr ℂ).trace := by
  have h1 : sortedRemove [0] = [0] := by simp [sortedRemove]
  have h2 : keepOf id 2 [0] = [1] := by rw [keepOf, h1]; rfl
  obtain ⟨w, hw, ww, wr, wc, we⟩ := Arr.matmul_spec (a := (⟨1, 1, [2]⟩ : Arr ℂ))
    (b := (⟨1, 1, [2]⟩ : Arr ℂ).dag) rfl
  have hp : ptrace id (⟨1, 1, [2]⟩ : Arr ℂ) [1, 1] [0] = traceOut w [1, 1] [0] [1] := by
    simp only [ptrace, if_true, hw, bind, Except.bind, h1, h2, List.length_cons, List.length_nil, wr]
    rfl
  refine ⟨_, hp.trans (traceOut_closed w [1, 1] [0] [1] ww (by rw [wr]; rfl) (by rw [wc]; rfl) ⟨by decide⟩
    (by simp) (by simp)), ?_⟩
  have := we 0 (by decide) 0 (by decide)
  simp [Arr.entry, Arr.dag, Arr.transpose, Arr.conj, Arr.ofFn] at this
  have e : ∀ r : Arr ℂ, r.rows = 1 → r.cols = 1 → r.trace = r.entry 0 0 := by
    intro r h1 h2
    simp [Arr.trace, h1, h2]
  rw [e _ rfl rfl, e _ rfl rfl, Arr.entry_ofFn _ (by decide) (by decide)]
  simp [joinIdx, mergeIdx, unravel, ravel, Arr.entry, this]
  intro h
  have := congrArg Complex.re h
  norm_num [Complex.conj_re] at this

/-- Non-vacuity: a 4×4 matrix on two subsystems of dimension 2 with the second removed. -/
example : Traceable (Arr.eye ℂ 4) [2, 2] [1] :=
  ⟨Arr.ofFn_wf _ _ _, rfl, rfl, by decide, by decide, by decide, by decide, 0, by decide, by decide⟩

end
end Verif.Operator
