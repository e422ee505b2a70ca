import Verif.Operator.Array

/-!
# `DenseOperator.truncate_to_subspace` (matrix.py:1281-1307) and property theorems C26
-/

namespace Verif.Operator
open Verif

/-- numpy's interpretation of an index into an axis of length `n`; negative indices count from the end. -/
def normIdx (n : Nat) (i : Int) : Except PyErr Nat :=
  if 0 ≤ i ∧ i < n then .ok i.toNat
  else if i < 0 ∧ 0 ≤ i + n then .ok (i + n).toNat
  else .error .indexError

/-- A list of indices into an axis of length `n`. -/
def resolve (n : Nat) : List Int → Except PyErr (List Nat)
  | [] => .ok []
  | i :: l => do
    let k ← normIdx n i
    let ks ← resolve n l
    pure (k :: ks)

/-- `a[np.ix_(p, q)]` for resolved index lists. -/
def Arr.select {K : Type} [Zero K] (a : Arr K) (p q : List Nat) : Arr K :=
  Arr.ofFn p.length q.length fun i j => a.entry (p.getD i 0) (q.getD j 0)

/-- `truncate_to_subspace`, matrix.py:1281-1307, with `closest` standing for `closest_unitary`.  The second
test for `shape[0] == 1` (1299) can never succeed, so the ket branch is dead code and kets are handled by
the last branch, which does not look at `map_to_closest_unitary`.  For bras the normalisation calls
`np.linalg.norm` with the unknown norm `'fre'`, which raises `ValueError`. -/
def truncate {K : Type} [Zero K] (closest : Arr K → Arr K) (a : Arr K) (idx : Option (List Int))
    (mapToUnitary : Bool := false) : Except PyErr (Arr K) :=
  match idx with
  | none => .ok a
  | some l =>
    if a.rows = a.cols then do
      let p ← resolve a.rows l
      let out := a.select p p
      if mapToUnitary then pure (closest out) else pure out
    else if a.rows = 1 then do
      let p ← resolve a.cols l
      let out := a.select [0] p
      if mapToUnitary then .error .valueError else pure out
    else do
      let p ← resolve a.rows l
      pure (a.select p (List.range a.cols))

section Lemmas

theorem normIdx_lt {n : Nat} {i : Int} {k : Nat} (h : normIdx n i = .ok k) :
    k < n ∧ ((k : Int) = i ∨ (k : Int) = i + n) := by
  rw [normIdx] at h
  split_ifs at h with h1 h2
  · simp only [Except.ok.injEq] at h; omega
  · simp only [Except.ok.injEq] at h; omega

theorem normIdx_nat {n k : Nat} (h : k < n) : normIdx n (k : Int) = .ok k := by
  rw [normIdx, if_pos (by omega)]; simp

theorem resolve_spec {n : Nat} {l : List Int} {p : List Nat} (h : resolve n l = .ok p) :
    p.length = l.length ∧ ∀ k ∈ p, k < n := by
  induction l generalizing p with
  | nil => simp only [resolve, Except.ok.injEq] at h; subst h; simp
  | cons i l ih =>
    simp only [resolve] at h
    cases hk : normIdx n i with
    | error e => simp [hk, bind, Except.bind] at h
    | ok k =>
      cases hks : resolve n l with
      | error e => simp [hk, hks, bind, Except.bind] at h
      | ok ks =>
        simp only [hk, hks, bind, Except.bind, pure, Except.pure, Except.ok.injEq] at h
        subst h
        obtain ⟨h1, h2⟩ := ih hks
        refine ⟨by simp [h1], fun m hm => ?_⟩
        rcases List.mem_cons.mp hm with rfl | hm
        · exact (normIdx_lt hk).1
        · exact h2 m hm

theorem resolve_nat {n : Nat} {p : List Nat} (h : ∀ k ∈ p, k < n) : resolve n (p.map fun k : Nat => (k : Int)) = .ok p := by
  induction p with
  | nil => rfl
  | cons k p ih =>
    simp only [List.map_cons, resolve]
    rw [normIdx_nat (h k (List.mem_cons_self)), ih fun m hm => h m (List.mem_cons_of_mem _ hm)]
    rfl

theorem getD_mem_lt {n : Nat} {p : List Nat} (h : ∀ k ∈ p, k < n) {i : Nat} (hi : i < p.length) :
    p.getD i 0 < n := by
  rw [List.getD_eq_getElem _ _ hi]
  exact h _ (List.getElem_mem hi)

variable {K : Type} [Zero K]

theorem select_wf (a : Arr K) (p q : List Nat) : (a.select p q).WF := Arr.ofFn_wf _ _ _
@[simp] theorem select_rows (a : Arr K) (p q : List Nat) : (a.select p q).rows = p.length := rfl
@[simp] theorem select_cols (a : Arr K) (p q : List Nat) : (a.select p q).cols = q.length := rfl

theorem entry_select (a : Arr K) (p q : List Nat) {i j : Nat} (hi : i < p.length) (hj : j < q.length) :
    (a.select p q).entry i j = a.entry (p.getD i 0) (q.getD j 0) := Arr.entry_ofFn _ hi hj

theorem select_select (a : Arr K) {p q p' q' : List Nat} (hp : ∀ k ∈ p', k < p.length)
    (hq : ∀ k ∈ q', k < q.length) :
    (a.select p q).select p' q' = a.select (p'.map (p.getD · 0)) (q'.map (q.getD · 0)) := by
  refine Arr.ext_entry (select_wf _ _ _) (select_wf _ _ _) (by simp) (by simp) fun i hi j hj => ?_
  simp only [select_rows, select_cols] at hi hj
  rw [entry_select _ _ _ hi hj, entry_select _ _ _ (getD_mem_lt hp hi) (getD_mem_lt hq hj),
    entry_select a (p'.map (p.getD · 0)) (q'.map (q.getD · 0)) (by simpa using hi) (by simpa using hj)]
  congr 1
  · rw [List.getD_eq_getElem (List.map _ p') _ (by simpa using hi), List.getElem_map,
      List.getD_eq_getElem p' _ hi]
  · rw [List.getD_eq_getElem (List.map _ q') _ (by simpa using hj), List.getElem_map,
      List.getD_eq_getElem q' _ hj]

end Lemmas

section Thms
variable {K : Type}

/-- Specification: `b` consists of the rows `p` and columns `q` of `a`. -/
structure Submatrix [Zero K] (a b : Arr K) (p q : List Nat) : Prop where
  wf : b.WF
  rows : b.rows = p.length
  cols : b.cols = q.length
  entry : ∀ i (hi : i < p.length) j (hj : j < q.length), b.entry i j = a.entry p[i] q[j]

/-- Specification: `p` are the positions in an axis of length `n` meant by the indices `l`. -/
def Means (n : Nat) (l : List Int) (p : List Nat) : Prop :=
  List.Forall₂ (fun i k => k < n ∧ ((k : Int) = i ∨ (k : Int) = i + n)) l p

theorem means_of_resolve {n : Nat} {l : List Int} {p : List Nat} (h : resolve n l = .ok p) : Means n l p := by
  induction l generalizing p with
  | nil => simp only [resolve, Except.ok.injEq] at h; subst h; exact .nil
  | cons i l ih =>
    simp only [resolve] at h
    cases hk : normIdx n i with
    | error e => simp [hk, bind, Except.bind] at h
    | ok k =>
      cases hks : resolve n l with
      | error e => simp [hk, hks, bind, Except.bind] at h
      | ok ks =>
        simp only [hk, hks, bind, Except.bind, pure, Except.pure, Except.ok.injEq] at h
        subst h
        exact .cons (normIdx_lt hk) (ih hks)

theorem resolve_of_means {n : Nat} {l : List Int} {p : List Nat} (h : Means n l p) : resolve n l = .ok p := by
  induction h with
  | nil => rfl
  | @cons i k l p hik _ ih =>
    have hk : normIdx n i = .ok k := by
      rw [normIdx]
      split_ifs with h1 h2
      · congr 1; omega
      · congr 1; omega
      · omega
    rw [resolve, hk, ih]
    rfl

theorem submatrix_select [Zero K] (a : Arr K) (p q : List Nat) : Submatrix a (a.select p q) p q :=
  ⟨select_wf _ _ _, rfl, rfl, fun i hi j hj => by
    rw [entry_select _ _ _ hi hj, List.getD_eq_getElem _ _ hi, List.getD_eq_getElem _ _ hj]⟩

variable [Zero K] (closest : Arr K → Arr K)

/-- **C26** Without index list the operator is returned. -/
theorem c26_none (a : Arr K) (m : Bool) : truncate closest a none m = .ok a := rfl

/-- **C26** A square matrix is cut to the listed rows and columns, in the listed order. -/
theorem c26_square (a : Arr K) (hs : a.rows = a.cols) (l : List Int) (p : List Nat) (hp : Means a.rows l p) :
    ∃ b, truncate closest a (some l) = .ok b ∧ Submatrix a b p p := by
  refine ⟨a.select p p, ?_, submatrix_select a p p⟩
  simp only [truncate]
  rw [if_pos hs, resolve_of_means hp]
  rfl

/-- **C26** A bra is cut to the listed columns. -/
theorem c26_bra (a : Arr K) (h1 : a.rows = 1) (hn : a.cols ≠ 1) (l : List Int) (p : List Nat)
    (hp : Means a.cols l p) : ∃ b, truncate closest a (some l) = .ok b ∧ Submatrix a b [0] p := by
  refine ⟨a.select [0] p, ?_, submatrix_select a [0] p⟩
  simp [truncate, h1, Ne.symm hn, resolve_of_means hp, bind, Except.bind, pure, Except.pure]

/-- **C26** A ket is cut to the listed rows. -/
theorem c26_ket (a : Arr K) (h1 : a.cols = 1) (hn : a.rows ≠ 1) (l : List Int) (p : List Nat)
    (hp : Means a.rows l p) : ∃ b, truncate closest a (some l) = .ok b ∧ Submatrix a b p [0] := by
  refine ⟨a.select p [0], ?_, submatrix_select a p [0]⟩
  simp [truncate, h1, hn, resolve_of_means hp, bind, Except.bind, pure, Except.pure]

/-- **C26** An index outside of the axis raises `IndexError`, for square matrices, bras and kets. -/
theorem c26_out_of_range (a : Arr K) (m : Bool) (n : Nat)
    (hn : (a.rows = a.cols ∧ n = a.rows) ∨ (a.rows = 1 ∧ n = a.cols) ∨ (a.cols = 1 ∧ n = a.rows))
    (l : List Int) (i : Int) (hi : i ∈ l) (ho : i < -n ∨ (n : Int) ≤ i) :
    truncate closest a (some l) m = .error .indexError := by
  have hr : resolve n l = .error .indexError := by
    induction l with
    | nil => simp at hi
    | cons j l ih =>
      rw [resolve]
      rcases List.mem_cons.mp hi with rfl | hi
      · have : normIdx n i = .error .indexError := by
          rw [normIdx, if_neg (by omega), if_neg (by omega)]
        rw [this]; rfl
      · rw [ih hi]
        have : normIdx n j = .error .indexError ∨ ∃ k, normIdx n j = .ok k := by
          rw [normIdx]; split_ifs <;> simp
        rcases this with h | ⟨k, h⟩ <;> rw [h] <;> rfl
  rw [truncate]
  simp only
  by_cases hs : a.rows = a.cols
  · have : n = a.rows := by rcases hn with h | h | h <;> omega
    rw [if_pos hs, ← this, hr]; rfl
  · rw [if_neg hs]
    by_cases h1 : a.rows = 1
    · have : n = a.cols := by rcases hn with h | h | h <;> omega
      rw [if_pos h1, ← this, hr]; rfl
    · have : n = a.rows := by rcases hn with h | h | h <;> omega
      rw [if_neg h1, ← this, hr]; rfl

/-- **C26** Truncating a square matrix twice is truncating once with the composed indices. -/
theorem c26_compose_square (a : Arr K) (hs : a.rows = a.cols) (l l' : List Int) (p p' : List Nat)
    (hp : Means a.rows l p) (hp' : Means l.length l' p') :
    (do truncate closest (← truncate closest a (some l)) (some l')) =
      truncate closest a (some (p'.map fun k => ((p.getD k 0 : Nat) : Int))) := by
  have hr := resolve_of_means hp
  have hr' := resolve_of_means hp'
  obtain ⟨hl, hlt⟩ := resolve_spec hr
  obtain ⟨-, hlt'⟩ := resolve_spec hr'
  rw [← hl] at hr' hlt'
  have hc : resolve a.cols (p'.map fun k => ((p.getD k 0 : Nat) : Int)) = .ok (p'.map (p.getD · 0)) := by
    have := resolve_nat (n := a.cols) (p := p'.map (p.getD · 0)) fun k hk => by
      obtain ⟨m, hm, rfl⟩ := List.mem_map.mp hk
      rw [← hs]
      exact getD_mem_lt hlt (hlt' m hm)
    rwa [List.map_map] at this
  rw [hs] at hr
  simp only [truncate, hs, if_true, hr, hc, bind, Except.bind, pure, Except.pure, Bool.false_eq_true,
    if_false, select_rows, select_cols, hr', select_select a hlt' hlt']

/-- **C26** The same for bras and kets, for index lists that are not empty and do not repeat an index. -/
theorem c26_compose_vector (a : Arr K) (n : Nat)
    (hn : (a.rows = 1 ∧ n = a.cols) ∨ (a.cols = 1 ∧ n = a.rows)) (hne : a.rows ≠ a.cols)
    (l l' : List Int) (p p' : List Nat) (hp : Means n l p) (hp' : Means l.length l' p') (h0 : l' ≠ [])
    (hnd : p'.Nodup) :
    (do truncate closest (← truncate closest a (some l)) (some l')) =
      truncate closest a (some (p'.map fun k => ((p.getD k 0 : Nat) : Int))) := by
  have hr := resolve_of_means hp
  have hr' := resolve_of_means hp'
  obtain ⟨hl, hlt⟩ := resolve_spec hr
  obtain ⟨hl', hlt'⟩ := resolve_spec hr'
  rw [← hl] at hr' hlt'
  have hc : resolve n (p'.map fun k => ((p.getD k 0 : Nat) : Int)) = .ok (p'.map (p.getD · 0)) := by
    have := resolve_nat (n := n) (p := p'.map (p.getD · 0)) fun k hk => by
      obtain ⟨m, hm, rfl⟩ := List.mem_map.mp hk
      exact getD_mem_lt hlt (hlt' m hm)
    rwa [List.map_map] at this
  -- a one element list has only the index list `[0]` to be cut with
  have hone : p.length = 1 → p' = [0] := by
    intro h1
    rw [h1] at hlt'
    match p', hnd, hlt', hl' with
    | [], _, _, hl' => exact absurd (List.length_eq_zero_iff.mp hl'.symm) h0
    | [k], _, hlt', _ => have := hlt' k (by simp); congr; omega
    | k :: m :: r, hnd, hlt', _ =>
      have h1 := hlt' k (by simp)
      have h2 := hlt' m (by simp)
      have : k = m := by omega
      simp [this] at hnd
  have hz : ∀ k ∈ [0], k < ([0] : List Nat).length := by simp
  rcases hn with ⟨h1, rfl⟩ | ⟨h1, rfl⟩
  · have hn1 : ¬ (1 = a.cols) := fun h => hne (by rw [h1, h])
    simp only [truncate, h1, if_neg hn1, if_true, hr, hc, bind, Except.bind, pure, Except.pure,
      Bool.false_eq_true, if_false, select_rows, select_cols, List.length_singleton]
    by_cases hp1 : p.length = 1
    · have := hone hp1
      subst this
      rw [hp1] at hr'
      simp only [hp1, if_true, hr']
      rw [select_select a hz (by rw [hp1]; simp)]
      rfl
    · rw [if_neg (Ne.symm hp1), hr']
      simp only
      rw [select_select a hz hlt']
      rfl
  · have hn1 : ¬ (a.rows = 1) := fun h => hne (by rw [h1, h])
    simp only [truncate, h1, if_neg hn1, if_true, hr, hc, bind, Except.bind, pure, Except.pure,
      Bool.false_eq_true, if_false, select_rows, select_cols, List.length_range]
    have hzr : ∀ k ∈ List.range 1, k < (List.range 1).length := by simp
    by_cases hp1 : p.length = 1
    · have := hone hp1
      subst this
      rw [hp1] at hr'
      simp only [hp1, if_true, hr']
      rw [select_select a (by rw [hp1]; simp) (by simp)]
      rfl
    · rw [if_neg hp1, if_neg hp1, hr']
      simp only
      rw [select_select a hlt' hzr]
      rfl

/-- Without the restriction on the index lists the second truncation of a bra cut to a single column treats
it as a square matrix and repeats rows as well. -/
theorem c26_compose_needs_distinct :
    (do truncate id (← truncate id (⟨1, 2, [5, 7]⟩ : Arr ℤ) (some [1])) (some [0, 0])) = .ok ⟨2, 2, [7, 7, 7, 7]⟩ ∧
      truncate id (⟨1, 2, [5, 7]⟩ : Arr ℤ) (some [1, 1]) = .ok ⟨1, 2, [7, 7]⟩ := ⟨rfl, rfl⟩

end Thms

section Algebra
variable {K : Type} [CommRing K] [StarRing K] (closest : Arr K → Arr K)

theorem select_dag (a : Arr K) {p q : List Nat} (hp : ∀ k ∈ p, k < a.rows) (hq : ∀ k ∈ q, k < a.cols) :
    a.dag.select q p = (a.select p q).dag := by
  refine Arr.ext_entry (select_wf _ _ _) (Arr.dag_wf _) rfl rfl fun i hi j hj => ?_
  simp only [select_rows, select_cols] at hi hj
  rw [entry_select _ _ _ hi hj, Arr.entry_dag _ (getD_mem_lt hq hi) (getD_mem_lt hp hj),
    Arr.entry_dag _ (by simpa using hi) (by simpa using hj), entry_select _ _ _ hj hi]

/-- Matrices for which the property is meant: square, bra or ket. -/
def Arr.Kind (a : Arr K) : Prop := a.rows = a.cols ∨ a.rows = 1 ∨ a.cols = 1

/-- **C26** Truncation commutes with the adjoint (same result, same errors). -/
theorem c26_dag (a : Arr K) (hk : a.Kind) (l : List Int) :
    truncate closest a.dag (some l) = (truncate closest a (some l)).map Arr.dag := by
  simp only [truncate]
  by_cases hs : a.rows = a.cols
  · rw [if_pos (show a.dag.rows = a.dag.cols from hs.symm), if_pos hs, hs, Arr.dag_rows]
    cases hr : resolve a.cols l with
    | error e => rfl
    | ok p =>
      have hlt := (resolve_spec hr).2
      simp only [bind, Except.bind, pure, Except.pure, Bool.false_eq_true, if_false, Except.map]
      rw [select_dag a (by rwa [hs]) hlt]
  · rw [if_neg hs, if_neg (show ¬ a.dag.rows = a.dag.cols from Ne.symm hs)]
    rcases hk with h | h | h
    · exact absurd h hs
    · have hc : ¬ a.cols = 1 := fun h' => hs (h.trans h'.symm)
      rw [if_pos h, if_neg (show ¬ a.dag.rows = 1 from hc), Arr.dag_rows, Arr.dag_cols, h]
      cases hr : resolve a.cols l with
      | error e => rfl
      | ok p =>
        simp only [bind, Except.bind, pure, Except.pure, Bool.false_eq_true, if_false, Except.map]
        rw [← select_dag a (by simp [h]) (resolve_spec hr).2]
        rfl
    · have hc : ¬ a.rows = 1 := fun h' => hs (h'.trans h.symm)
      rw [if_pos (show a.dag.rows = 1 from h), if_neg hc, Arr.dag_cols, h]
      cases hr : resolve a.rows l with
      | error e => rfl
      | ok p =>
        simp only [bind, Except.bind, pure, Except.pure, Bool.false_eq_true, if_false, Except.map]
        rw [← select_dag a (resolve_spec hr).2 (by simp [h])]
        rfl

theorem add_spec {a b : Arr K} (hr : a.rows = b.rows) (hc : a.cols = b.cols) (ha : a.WF) (hb : b.WF) :
    ∃ c, a.add b = .ok c ∧ c.WF ∧ c.rows = a.rows ∧ c.cols = a.cols ∧
      ∀ i j, c.entry i j = a.entry i j + b.entry i j := by
  have hl : a.buf.length = b.buf.length := by rw [ha, hb, hr, hc]
  refine ⟨⟨a.rows, a.cols, List.zipWith (· + ·) a.buf b.buf⟩, by rw [Arr.add, if_pos ⟨hr, hc⟩], ?_, rfl, rfl,
    fun i j => ?_⟩
  · simp only [Arr.WF, List.length_zipWith, ← hl, min_self]; exact ha
  · simp only [Arr.entry, ← hc]
    rcases Nat.lt_or_ge (i * a.cols + j) a.buf.length with h | h
    · rw [List.getD_eq_getElem _ _ (by simpa [← hl] using h), List.getElem_zipWith, List.getD_eq_getElem _ _ h,
        List.getD_eq_getElem _ _ (hl ▸ h)]
    · rw [List.getD_eq_default _ _ (by simpa [← hl] using h), List.getD_eq_default _ _ h,
        List.getD_eq_default _ _ (hl ▸ h), add_zero]

theorem select_add {a b c : Arr K} (hc : ∀ i j, c.entry i j = a.entry i j + b.entry i j) (p q : List Nat) :
    (a.select p q).add (b.select p q) = .ok (c.select p q) := by
  obtain ⟨d, hd, hw, hr, hcl, he⟩ := add_spec (a := a.select p q) (b := b.select p q) rfl rfl (select_wf _ _ _)
    (select_wf _ _ _)
  rw [hd]
  congr 1
  refine Arr.ext_entry hw (select_wf _ _ _) hr hcl fun i hi j hj => ?_
  rw [hr] at hi
  rw [hcl] at hj
  simp only [select_rows, select_cols] at hi hj
  rw [he, entry_select _ _ _ hi hj, entry_select _ _ _ hi hj, entry_select _ _ _ hi hj, hc]

/-- **C26** Truncation is additive: the truncated sum is the sum of the truncated operators. -/
theorem c26_add (a b : Arr K) (ha : a.WF) (hb : b.WF) (hr : a.rows = b.rows) (hc : a.cols = b.cols)
    (l : List Int) :
    (do truncate closest (← a.add b) (some l)) =
      (do (← truncate closest a (some l)).add (← truncate closest b (some l))) := by
  obtain ⟨c, hadd, hw, hcr, hcc, he⟩ := add_spec hr hc ha hb
  rw [hadd]
  simp only [bind, Except.bind, truncate, hcr, hcc, ← hr, ← hc, Bool.false_eq_true, if_false]
  split_ifs with h1 h2
  · cases hp : resolve a.rows l with
    | error e => rfl
    | ok p => simp only [pure, Except.pure, select_add he, Bool.false_eq_true, if_false]
  · cases hp : resolve a.cols l with
    | error e => rfl
    | ok p => simp only [pure, Except.pure, select_add he]
  · cases hp : resolve a.rows l with
    | error e => rfl
    | ok p => simp only [pure, Except.pure, select_add he]

theorem select_smul (z : K) (a : Arr K) (p q : List Nat) : (a.smul z).select p q = (a.select p q).smul z := by
  refine Arr.ext_entry (select_wf _ _ _) (Arr.smul_wf _ (select_wf _ _ _)) rfl rfl fun i hi j hj => ?_
  simp only [select_rows, select_cols] at hi hj
  rw [entry_select _ _ _ hi hj, Arr.entry_smul, Arr.entry_smul, entry_select _ _ _ hi hj]

/-- **C26** Truncation commutes with scalar factors. -/
theorem c26_smul (z : K) (a : Arr K) (l : List Int) :
    truncate closest (a.smul z) (some l) = (truncate closest a (some l)).map (Arr.smul z) := by
  have h1 : (a.smul z).rows = a.rows := rfl
  have h2 : (a.smul z).cols = a.cols := rfl
  simp only [truncate, h1, h2, Bool.false_eq_true, if_false]
  split_ifs with h1 h2
  · cases hp : resolve a.rows l with
    | error e => rfl
    | ok p => simp only [bind, Except.bind, pure, Except.pure, Except.map, select_smul, Bool.false_eq_true, if_false]
  · cases hp : resolve a.cols l with
    | error e => rfl
    | ok p => simp only [bind, Except.bind, pure, Except.pure, Except.map, select_smul]
  · cases hp : resolve a.rows l with
    | error e => rfl
    | ok p => simp only [bind, Except.bind, pure, Except.pure, Except.map, select_smul]

/-- **C26** With `map_to_closest_unitary` a truncated square matrix is mapped by `closest_unitary`; a bra
raises `ValueError` for every valid index list; a ket is returned without normalisation. -/
theorem c26_map_to_closest_unitary (a : Arr K) (l : List Int) :
    (a.rows = a.cols → truncate closest a (some l) true = (truncate closest a (some l)).map closest) ∧
    (a.rows = 1 → a.cols ≠ 1 → (∃ p, Means a.cols l p) → truncate closest a (some l) true = .error .valueError) ∧
    (a.cols = 1 → a.rows ≠ 1 → truncate closest a (some l) true = truncate closest a (some l)) := by
  refine ⟨fun h => ?_, fun h1 h2 ⟨p, hp⟩ => ?_, fun h1 h2 => ?_⟩
  · simp only [truncate, if_pos h]
    cases hp : resolve a.rows l with
    | error e => rfl
    | ok p => simp [bind, Except.bind, pure, Except.pure, Except.map]
  · simp [truncate, h1, Ne.symm h2, resolve_of_means hp, bind, Except.bind]
  · simp [truncate, h1, h2]

/-- Non-vacuity: a 3×3 matrix, negative and reordered indices, valid composed truncation, a bra. -/
example : Means 3 [-1, 0] [2, 0] ∧
    truncate id (⟨3, 3, [1, 2, 3, 4, 5, 6, 7, 8, 9]⟩ : Arr ℤ) (some [-1, 0]) = .ok ⟨2, 2, [9, 7, 3, 1]⟩ ∧
    truncate id (⟨1, 3, [1, 2, 3]⟩ : Arr ℤ) (some [2, 0]) = .ok ⟨1, 2, [3, 1]⟩ ∧
    truncate id (⟨3, 1, [1, 2, 3]⟩ : Arr ℤ) (some [2, 0]) = .ok ⟨2, 1, [3, 1]⟩ := by
  refine ⟨.cons (by omega) (.cons (by omega) .nil), rfl, rfl, rfl⟩

end Algebra
end Verif.Operator
