import Verif.Operator.Heap

/-!
# Property theorems C25: operator arithmetic does not modify its operands

Specification vocabulary: the *value* of a variable is the array it shows; two variables *share memory*
if they show the same buffer.
-/

namespace Verif.Operator
open Verif

namespace Heap
variable {K : Type} [Field K] [StarRing K]

/-- The value of variable `i`, `none` if there is no such variable. -/
def get (h : Heap K) (i : Nat) : Option (Arr K) := (h.view? i).map h.value

/-- Variables `i` and `j` share memory. -/
def Shares (h : Heap K) (i j : Nat) : Prop := ∃ v w, h.view? i = some v ∧ h.view? j = some w ∧ v.loc = w.loc

/-- Variables `i` and `j` are the same object. -/
def Same (h : Heap K) (i j : Nat) : Prop := h.vars[i]? = h.vars[j]?

/-- Every variable refers to an object, every object shows an existing buffer and every buffer has as many elements as its shape
says. -/
structure Good (h : Heap K) : Prop where
  obj : ∀ o ∈ h.vars, o < h.objs.length
  loc : ∀ v ∈ h.objs, v.loc < h.mem.length
  wf : ∀ a ∈ h.mem, a.WF

theorem value_wf {h : Heap K} (g : h.Good) (v : View) : (h.value v).WF := by
  have : (h.mem.getD v.loc ⟨0, 0, []⟩).WF := by
    rcases Nat.lt_or_ge v.loc h.mem.length with hl | hl
    · rw [List.getD_eq_getElem _ _ hl]; exact g.wf _ (List.getElem_mem hl)
    · rw [List.getD_eq_default _ _ hl]; rfl
  unfold value
  split
  · exact Arr.transpose_wf _
  · exact this

theorem value_alloc_old {h : Heap K} (a : Arr K) {v : View} (hv : v.loc < h.mem.length) :
    (h.alloc a).1.value v = h.value v := by
  simp only [value, alloc]
  rw [List.getD_append _ _ _ _ hv]

theorem value_alloc_new (h : Heap K) (a : Arr K) : (h.alloc a).1.value (h.alloc a).2 = a := by
  simp only [value, alloc]
  rw [List.getD_append_right _ _ _ _ (le_refl _)]
  simp

theorem value_write_other {h : Heap K} (v w : View) (a : Arr K) (hne : w.loc ≠ v.loc) :
    (h.write v a).value w = h.value w := by
  simp only [value, write, List.getD_eq_getElem?_getD]
  rw [List.getElem?_set_ne (Ne.symm hne)]

theorem value_write_self {h : Heap K} (v : View) (a : Arr K) (ha : a.WF) (hv : v.loc < h.mem.length) :
    (h.write v a).value v = a := by
  simp only [value, write, List.getD_eq_getElem?_getD]
  rw [List.getElem?_set_self hv]
  by_cases ht : v.tr
  · simp [ht, Arr.transpose_transpose a ha]
  · simp [ht]

theorem value_push (p : Heap K × View) (v : View) : (push p).value v = p.1.value v := rfl

theorem add_wf {a b c : Arr K} (ha : a.WF) (hb : b.WF) (h : a.add b = .ok c) : c.WF := by
  rw [Arr.add] at h
  split at h
  · rename_i hs
    simp only [Except.ok.injEq] at h
    subst h
    simp only [Arr.WF, List.length_zipWith]
    rw [ha, hb, ← hs.1, ← hs.2, min_self]
  · simp at h

theorem negArr_wf {a : Arr K} (ha : a.WF) : (negArr a).WF := by simpa [Arr.WF, negArr] using ha

theorem matmul_wf {a b c : Arr K} (h : a.matmul b = .ok c) : c.WF := by
  rw [Arr.matmul] at h
  split at h
  · simp only [Except.ok.injEq] at h; subst h; exact Arr.ofFn_wf _ _ _
  · simp at h

theorem Good.alloc {h : Heap K} (g : h.Good) {a : Arr K} (ha : a.WF) : (h.alloc a).1.Good := by
  refine ⟨g.obj, fun v hv => ?_, fun b hb => ?_⟩
  · have := g.loc v hv
    simp only [Heap.alloc, List.length_append, List.length_cons, List.length_nil]
    omega
  · rcases List.mem_append.mp hb with h1 | h1
    · exact g.wf b h1
    · rw [List.mem_singleton.mp h1]; exact ha

theorem Good.write {h : Heap K} (g : h.Good) (v : View) {a : Arr K} (ha : a.WF) : (h.write v a).Good := by
  refine ⟨g.obj, fun w hw => ?_, fun b hb => ?_⟩
  · simpa [Heap.write] using g.loc w hw
  · rcases List.mem_or_eq_of_mem_set hb with h1 | h1
    · exact g.wf b h1
    · rw [h1]
      split
      · exact Arr.transpose_wf _
      · exact ha

theorem Good.push {h : Heap K} (g : h.Good) {v : View} (hv : v.loc < h.mem.length) : (Heap.push (h, v)).Good := by
  refine ⟨fun o ho => ?_, fun w hw => ?_, g.wf⟩
  · simp only [Heap.push, List.length_append, List.length_cons, List.length_nil]
    rcases List.mem_append.mp ho with h1 | h1
    · have := g.obj o h1; omega
    · rw [List.mem_singleton.mp h1]; exact Nat.lt_succ_self _
  · rcases List.mem_append.mp hw with h1 | h1
    · exact g.loc w h1
    · rw [List.mem_singleton.mp h1]; exact hv

theorem Good.rebind {h : Heap K} (g : h.Good) (i : Nat) {v : View} (hv : v.loc < h.mem.length) : (h.rebind i v).Good := by
  unfold Heap.rebind
  split
  · refine ⟨fun o ho => by simpa using g.obj o ho, fun w hw => ?_, g.wf⟩
    rcases List.mem_or_eq_of_mem_set hw with h1 | h1
    · exact g.loc w h1
    · rw [h1]; exact hv
  · exact g

theorem view_some {h : Heap K} {i : Nat} {v : View} (hv : h.view? i = some v) : ∃ o, h.vars[i]? = some o ∧ h.objs[o]? = some v := by
  unfold view? at hv
  cases ho : h.vars[i]? with
  | none => simp [ho] at hv
  | some o => exact ⟨o, rfl, by simpa [ho] using hv⟩

/-- In a good heap a variable has a view. -/
theorem Good.view {h : Heap K} (g : h.Good) {i : Nat} (hi : i < h.vars.length) : ∃ v, h.view? i = some v ∧ v.loc < h.mem.length := by
  have ho := g.obj _ (List.getElem_mem hi)
  exact ⟨h.objs[h.vars[i]], by simp [view?, List.getElem?_eq_getElem hi, List.getElem?_eq_getElem ho], g.loc _ (List.getElem_mem ho)⟩

theorem var_ok {h : Heap K} {i : Nat} {v : View} (hv : h.var i = .ok v) : h.view? i = some v := by
  rw [var] at hv
  split at hv
  · rename_i w hw
    simp only [Except.ok.injEq] at hv
    rw [hw, hv]
  · simp at hv

theorem view_lt {h : Heap K} {i : Nat} {v : View} (hv : h.view? i = some v) : i < h.vars.length := by
  obtain ⟨o, ho, -⟩ := view_some hv
  exact (List.getElem?_eq_some_iff.mp ho).1

theorem bind_ok' {ε α β : Type} {x : Except ε α} {f : α → Except ε β} {b : β} (h : (x >>= f) = .ok b) :
    ∃ a, x = .ok a ∧ f a = .ok b := by
  cases x with
  | error e => simp [bind, Except.bind] at h
  | ok a => exact ⟨a, rfl, h⟩

/-- What a successful operation that binds a new variable does: old memory is kept, the new variable shows
`a`, in memory allocated by this operation. -/
structure Fresh (h h' : Heap K) (a : Arr K) : Prop where
  good : h'.Good
  keep : ∀ v : View, v.loc < h.mem.length → h'.value v = h.value v
  bound : ∃ v : View, h'.objs = h.objs ++ [v] ∧ h'.vars = h.vars ++ [h.objs.length] ∧ h.mem.length ≤ v.loc ∧ h'.value v = a

theorem fresh_alloc {h : Heap K} (g : h.Good) {a : Arr K} (ha : a.WF) : Fresh h (push (h.alloc a)) a :=
  ⟨(g.alloc ha).push (by simp [alloc]), fun _ hv => value_alloc_old a hv,
    _, rfl, rfl, le_refl _, value_alloc_new h a⟩

/-- Copy, then an in-place operation on the copy. -/
theorem fresh_alloc_write {h : Heap K} (g : h.Good) {a b : Arr K} (ha : a.WF) (hb : b.WF) :
    Fresh h (push ((h.alloc a).1.write (h.alloc a).2 b, (h.alloc a).2)) b := by
  have hl : (h.alloc a).2.loc < (h.alloc a).1.mem.length := by simp [alloc]
  refine ⟨((g.alloc ha).write _ hb).push (by simpa [Heap.write] using hl), fun v hv => ?_,
    _, rfl, rfl, le_refl _, value_write_self _ _ hb hl⟩
  rw [value_push]
  show ((h.alloc a).1.write (h.alloc a).2 b).value v = _
  rw [value_write_other _ _ _ (by simp [alloc]; omega), value_alloc_old a hv]

/-- What an operation computes from the values of its operands; `none` for operations that bind no new
variable or share memory. -/
def pureResult (h : Heap K) : Cmd K → Option (Except PyErr (Arr K))
  | .array a => some (.ok a)
  | .copy i => some (do pure (h.value (← h.var i)))
  | .add i j => some (do (h.value (← h.var i)).add (h.value (← h.var j)))
  | .sub i j => some (do (h.value (← h.var i)).add (negArr (h.value (← h.var j))))
  | .mul i j => some (do (h.value (← h.var i)).matmul (h.value (← h.var j)))
  | .smul z i => some (do pure ((h.value (← h.var i)).smul z))
  | .dag i => some (do pure (h.value (← h.var i)).dag)
  | .conj i => some (do pure (h.value (← h.var i)).conj)
  | .transpose i => some (do pure (h.value (← h.var i)).transpose)
  | .kron i j => some (do pure ((h.value (← h.var i)).kron (h.value (← h.var j))))
  | .scal op z i => some (do pure ((h.value (← h.var i)).scal op z))
  | .identityLike i => some (do (h.value (← h.var i)).identityLike)
  | .ptrace order dims remove i => some (do Operator.ptrace order (h.value (← h.var i)) dims remove)
  | .truncate l i => some (do Operator.truncate id (h.value (← h.var i)) (some l))
  | _ => none

/-- New arrays must be well formed, as every numpy array is; division by zero is excluded. -/
def CmdOk : Cmd K → Prop
  | .array a => a.WF
  | .scal op z _ => op = .div → z ≠ 0
  | .scalIn op z _ => op = .div → z ≠ 0
  | _ => True

theorem var_lt {h : Heap K} (g : h.Good) {i : Nat} {v : View} (hv : h.var i = .ok v) : v.loc < h.mem.length :=
  by
  obtain ⟨o, -, hv⟩ := view_some (var_ok hv)
  exact g.loc v (List.mem_of_getElem? hv)

omit [StarRing K] in
theorem scal_wf (op : SOp) (z : K) {a : Arr K} (ha : a.WF) : (a.scal op z).WF := by simpa [Arr.WF, Arr.scal] using ha

omit [Field K] [StarRing K] in
theorem setEntry_wf {r c : Int} {z : K} {a b : Arr K} (ha : a.WF) (h : a.setEntry r c z = .ok b) : b.WF := by
  unfold Arr.setEntry at h
  cases h1 : normIdx a.rows r with
  | error e => simp [h1, bind, Except.bind] at h
  | ok i =>
    cases h2 : normIdx a.cols c with
    | error e => simp [h1, h2, bind, Except.bind] at h
    | ok j =>
      simp only [h1, h2, bind, Except.bind, pure, Except.pure, Except.ok.injEq] at h
      subst h
      simpa [Arr.WF] using ha

omit [StarRing K] in
theorem identityLike_wf {a b : Arr K} (h : a.identityLike = .ok b) : b.WF := by
  unfold Arr.identityLike at h
  split at h
  · cases h; exact Arr.ofFn_wf _ _ _
  · cases h

theorem ptrace_wf {order : List Nat → List Nat} {a b : Arr K} {dims remove : List Nat} (h : Operator.ptrace order a dims remove = .ok b) :
    b.WF := by
  have key : ∃ mat l k, traceOut mat dims l k = .ok b := by
    unfold Operator.ptrace at h
    simp only at h
    split at h
    all_goals
      obtain ⟨mat, -, h⟩ := bind_ok' h
      split at h
      · cases h
      split at h
      · cases h
      exact ⟨_, _, _, h⟩
  obtain ⟨mat, l, k, h⟩ := key
  unfold traceOut at h
  obtain ⟨nd, -, h⟩ := bind_ok' h
  obtain ⟨nd', -, h⟩ := bind_ok' h
  split at h
  · cases h
  obtain ⟨nd'', -, h⟩ := bind_ok' h
  cases h
  exact Arr.ofFn_wf _ _ _

omit [StarRing K] in
theorem truncate_wf {a b : Arr K} {l : List Int} (h : Operator.truncate id a (some l) = .ok b) : b.WF := by
  unfold Operator.truncate at h
  simp only [Bool.false_eq_true, if_false] at h
  split at h
  · obtain ⟨p, -, h⟩ := bind_ok' h
    cases h; exact Arr.ofFn_wf _ _ _
  split at h
  · obtain ⟨p, -, h⟩ := bind_ok' h
    cases h; exact Arr.ofFn_wf _ _ _
  · obtain ⟨p, -, h⟩ := bind_ok' h
    cases h; exact Arr.ofFn_wf _ _ _

/-- **C25** `a+b`, `a-b`, `a*b`, `z*a`, `a+z`, `a-z`, `a/z`, `a.dag()`, `a.conj()`, `a.transpose()`, `a.kron(b)`, `a.identity_like()`,
`a.ptrace(...)`, `a.truncate_to_subspace([...])` and `a.copy()`: the
operation succeeds exactly if the result is defined, the new variable shows the result, in memory that no
old variable shows, and all old memory keeps its contents. -/
theorem c25_pure (h : Heap K) (g : h.Good) (c : Cmd K) (hc : CmdOk c) (r : Except PyErr (Arr K))
    (hr : h.pureResult c = some r) :
    (∀ e, r = .error e → h.step c = .error e) ∧ (∀ a, r = .ok a → ∃ h', h.step c = .ok h' ∧ Fresh h h' a) := by
  have hneg : ∀ v, (negArr (h.value v)).WF := fun v => negArr_wf (value_wf g v)
  cases c with
  | array a =>
    simp only [pureResult, Option.some.injEq] at hr
    subst hr
    refine ⟨by simp, ?_⟩
    intro b hb
    simp only [Except.ok.injEq] at hb
    subst hb
    exact ⟨_, rfl, fresh_alloc g hc⟩
  | copy i =>
    simp only [pureResult, Option.some.injEq] at hr
    subst hr
    cases hv : h.var i with
    | error e => simp [step, hv, bind, Except.bind]
    | ok v =>
      simp only [step, hv, bind, Except.bind, pure, Except.pure]
      refine ⟨by simp, ?_⟩
      rintro a ⟨⟩
      exact ⟨_, rfl, fresh_alloc g (value_wf g v)⟩
  | add i j =>
    simp only [pureResult, Option.some.injEq] at hr
    subst hr
    cases hv : h.var i with
    | error e => simp [step, hv, bind, Except.bind]
    | ok v =>
      cases hw : h.var j with
      | error e => simp [step, hv, hw, bind, Except.bind]
      | ok w =>
        have hwl := var_lt g hw
        simp only [step, hv, hw, bind, Except.bind, addInto, pure, Except.pure]
        rw [value_alloc_new, value_alloc_old _ hwl]
        cases hx : (h.value v).add (h.value w) with
        | error e => simp
        | ok x =>
          refine ⟨by simp, ?_⟩
          rintro a ⟨⟩
          exact ⟨_, rfl, fresh_alloc_write g (value_wf g v) (add_wf (value_wf g v) (value_wf g w) hx)⟩
  | sub i j =>
    simp only [pureResult, Option.some.injEq] at hr
    subst hr
    cases hv : h.var i with
    | error e => simp [step, hv, bind, Except.bind]
    | ok v =>
      cases hw : h.var j with
      | error e => simp [step, hv, hw, bind, Except.bind]
      | ok w =>
        have hwl := var_lt g hw
        simp only [step, hv, hw, bind, Except.bind, subInto, pure, Except.pure]
        rw [value_alloc_new, value_alloc_old _ hwl]
        cases hx : (h.value v).add (negArr (h.value w)) with
        | error e => simp
        | ok x =>
          refine ⟨by simp, ?_⟩
          rintro a ⟨⟩
          exact ⟨_, rfl, fresh_alloc_write g (value_wf g v) (add_wf (value_wf g v) (hneg w) hx)⟩
  | mul i j =>
    simp only [pureResult, Option.some.injEq] at hr
    subst hr
    cases hv : h.var i with
    | error e => simp [step, hv, bind, Except.bind]
    | ok v =>
      cases hw : h.var j with
      | error e => simp [step, hv, hw, bind, Except.bind]
      | ok w =>
        simp only [step, hv, hw, bind, Except.bind, pure, Except.pure]
        cases hx : (h.value v).matmul (h.value w) with
        | error e => simp
        | ok x =>
          refine ⟨by simp, ?_⟩
          rintro a ⟨⟩
          exact ⟨_, rfl, fresh_alloc g (matmul_wf hx)⟩
  | smul z i =>
    simp only [pureResult, Option.some.injEq] at hr
    subst hr
    cases hv : h.var i with
    | error e => simp [step, hv, bind, Except.bind]
    | ok v =>
      simp only [step, hv, bind, Except.bind, pure, Except.pure, smulInto]
      rw [value_alloc_new]
      refine ⟨by simp, ?_⟩
      rintro a ⟨⟩
      exact ⟨_, rfl, fresh_alloc_write g (value_wf g v) (Arr.smul_wf z (value_wf g v))⟩
  | dag i =>
    simp only [pureResult, Option.some.injEq] at hr
    subst hr
    cases hv : h.var i with
    | error e => simp [step, hv, bind, Except.bind]
    | ok v =>
      simp only [step, hv, bind, Except.bind, pure, Except.pure, conjInto]
      rw [value_alloc_new]
      have hl : (h.alloc (h.value v)).2.loc < (h.alloc (h.value v)).1.mem.length := by simp [alloc]
      have hcw := Arr.conj_wf (value_wf g v)
      rw [value_write_self _ _ hcw hl]
      refine ⟨by simp, ?_⟩
      rintro a ⟨⟩
      have g2 := (g.alloc (value_wf g v)).write (h.alloc (h.value v)).2 hcw
      have F := fresh_alloc (h := (h.alloc (h.value v)).1.write (h.alloc (h.value v)).2 (h.value v).conj) g2
        (Arr.transpose_wf (h.value v).conj)
      refine ⟨_, rfl, F.good, fun w hw => ?_, ?_⟩
      · rw [F.keep w (by simp [alloc, Heap.write]; omega),
          value_write_other _ _ _ (by simp [alloc]; omega), value_alloc_old _ hw]
      · obtain ⟨u, h1, h1', h2, h3⟩ := F.bound
        refine ⟨u, h1, h1', ?_, h3⟩
        simp only [alloc, Heap.write, List.length_set, List.length_append, List.length_cons,
          List.length_nil] at h2
        omega
  | conj i =>
    simp only [pureResult, Option.some.injEq] at hr
    subst hr
    cases hv : h.var i with
    | error e => simp [step, hv, bind, Except.bind]
    | ok v =>
      simp only [step, hv, bind, Except.bind, pure, Except.pure, conjInto]
      rw [value_alloc_new]
      refine ⟨by simp, ?_⟩
      rintro a ⟨⟩
      exact ⟨_, rfl, fresh_alloc_write g (value_wf g v) (Arr.conj_wf (value_wf g v))⟩
  | transpose i =>
    simp only [pureResult, Option.some.injEq] at hr
    subst hr
    cases hv : h.var i with
    | error e => simp [step, hv, bind, Except.bind]
    | ok v =>
      simp only [step, hv, bind, Except.bind, pure, Except.pure]
      refine ⟨by simp, ?_⟩
      rintro a ⟨⟩
      refine ⟨_, rfl, (g.alloc (value_wf g v)).push (by simp [alloc]), fun w hw => ?_, _, rfl, rfl, le_refl _, ?_⟩
      · exact value_alloc_old _ hw
      · have := value_alloc_new h (h.value v)
        simp only [value, alloc] at this ⊢
        simp only [push, Bool.false_eq_true, if_false] at this ⊢
        rw [this]
        simp
  | kron i j =>
    simp only [pureResult, Option.some.injEq] at hr
    subst hr
    cases hv : h.var i with
    | error e => simp [step, hv, bind, Except.bind]
    | ok v =>
      cases hw : h.var j with
      | error e => simp [step, hv, hw, bind, Except.bind]
      | ok w =>
        simp only [step, hv, hw, bind, Except.bind, pure, Except.pure]
        refine ⟨by simp, ?_⟩
        rintro a ⟨⟩
        exact ⟨_, rfl, fresh_alloc g (Arr.kron_wf _ _)⟩
  | scal op z i =>
    simp only [pureResult, Option.some.injEq] at hr
    subst hr
    cases hv : h.var i with
    | error e => simp [step, hv, bind, Except.bind]
    | ok v =>
      simp only [step, hv, bind, Except.bind, pure, Except.pure]
      refine ⟨by simp, ?_⟩
      rintro a ⟨⟩
      cases op with
      | div => exact ⟨_, rfl, fresh_alloc g (scal_wf _ z (value_wf g v))⟩
      | add =>
        rw [value_alloc_new]
        exact ⟨_, rfl, fresh_alloc_write g (value_wf g v) (scal_wf _ z (value_wf g v))⟩
      | sub =>
        rw [value_alloc_new]
        exact ⟨_, rfl, fresh_alloc_write g (value_wf g v) (scal_wf _ z (value_wf g v))⟩
  | identityLike i =>
    simp only [pureResult, Option.some.injEq] at hr
    subst hr
    cases hv : h.var i with
    | error e => simp [step, hv, bind, Except.bind]
    | ok v =>
      simp only [step, hv, bind, Except.bind, pure, Except.pure]
      cases hx : (h.value v).identityLike with
      | error e => simp
      | ok x =>
        refine ⟨by simp, ?_⟩
        rintro a ⟨⟩
        exact ⟨_, rfl, fresh_alloc g (identityLike_wf hx)⟩
  | ptrace order dims remove i =>
    simp only [pureResult, Option.some.injEq] at hr
    subst hr
    cases hv : h.var i with
    | error e => simp [step, hv, bind, Except.bind]
    | ok v =>
      simp only [step, hv, bind, Except.bind, pure, Except.pure]
      cases hx : Operator.ptrace order (h.value v) dims remove with
      | error e => simp
      | ok x =>
        refine ⟨by simp, ?_⟩
        rintro a ⟨⟩
        exact ⟨_, rfl, fresh_alloc g (ptrace_wf hx)⟩
  | truncate l i =>
    simp only [pureResult, Option.some.injEq] at hr
    subst hr
    cases hv : h.var i with
    | error e => simp [step, hv, bind, Except.bind]
    | ok v =>
      simp only [step, hv, bind, Except.bind, pure, Except.pure]
      cases hx : Operator.truncate id (h.value v) (some l) with
      | error e => simp
      | ok x =>
        refine ⟨by simp, ?_⟩
        rintro a ⟨⟩
        exact ⟨_, rfl, fresh_alloc g (truncate_wf hx)⟩
  | rename i => simp [pureResult] at hr
  | scalIn op z i => simp [pureResult] at hr
  | setItem r c z i => simp [pureResult] at hr
  | ptraceIn order dims remove i => simp [pureResult] at hr
  | wrap i => simp [pureResult] at hr
  | addIn i j => simp [pureResult] at hr
  | subIn i j => simp [pureResult] at hr
  | mulIn i j => simp [pureResult] at hr
  | smulIn z i => simp [pureResult] at hr
  | dagIn i => simp [pureResult] at hr
  | conjIn i => simp [pureResult] at hr
  | transposeIn i => simp [pureResult] at hr

/-- What an in-place operation stores into its left operand. -/
def inplaceResult (h : Heap K) : Cmd K → Option (Except PyErr (Arr K))
  | .addIn i j => some (do (h.value (← h.var i)).add (h.value (← h.var j)))
  | .subIn i j => some (do (h.value (← h.var i)).add (negArr (h.value (← h.var j))))
  | .mulIn i j => some (do
      let v ← h.var i
      let x ← (h.value v).matmul (h.value (← h.var j))
      if x.rows = (h.value v).rows ∧ x.cols = (h.value v).cols then pure x else .error .valueError)
  | .smulIn z i => some (do pure ((h.value (← h.var i)).smul z))
  | .conjIn i => some (do pure (h.value (← h.var i)).conj)
  | .dagIn i => some (do pure (h.value (← h.var i)).dag)
  | .transposeIn i => some (do pure (h.value (← h.var i)).transpose)
  | .scalIn op z i => some (do pure ((h.value (← h.var i)).scal op z))
  | .setItem r c z i => some (do (h.value (← h.var i)).setEntry r c z)
  | _ => none

/-- What a successful in-place operation on variable `i` does: no new variables, the operand shows `a`,
variables that do not share memory with it keep their value, and sharing is unchanged. -/
structure InPlace (h h' : Heap K) (i : Nat) (a : Arr K) : Prop where
  good : h'.Good
  same_vars : h'.vars = h.vars
  locs : h'.objs.map View.loc = h.objs.map View.loc
  result : h'.get i = some a
  keep : ∀ k, k < h.vars.length → ¬ h.Shares k i → h'.get k = h.get k

theorem inplace_write {h : Heap K} (g : h.Good) {i : Nat} {v : View} (hv : h.var i = .ok v) {a : Arr K}
    (ha : a.WF) : InPlace h (h.write v a) i a := by
  have hv' := var_ok hv
  have hl := var_lt g hv
  refine ⟨g.write v ha, rfl, rfl, ?_, fun k hk hs => ?_⟩
  · show (h.view? i).map _ = _
    rw [hv', Option.map_some, value_write_self v a ha hl]
  · show (h.view? k).map _ = (h.view? k).map _
    cases hw : h.view? k with
    | none => rfl
    | some w =>
      simp only [Option.map_some, Option.some.injEq]
      refine value_write_other v w a fun he => hs ⟨w, v, hw, hv', he⟩

theorem inplace_flip {h : Heap K} (g : h.Good) {i : Nat} {v : View} (hv : h.var i = .ok v) {b : Arr K}
    (hb : b.WF) : InPlace h ((h.write v b).rebind i ⟨v.loc, !v.tr⟩) i b.transpose := by
  have hv' := var_ok hv
  have hl := var_lt g hv
  obtain ⟨o, ho, hov⟩ := view_some hv'
  have hoi : o < h.objs.length := (List.getElem?_eq_some_iff.mp hov).1
  have W := inplace_write g hv hb
  have hR : (h.write v b).rebind i ⟨v.loc, !v.tr⟩ = ⟨(h.write v b).mem, h.objs.set o ⟨v.loc, !v.tr⟩, h.vars⟩ := by
    unfold Heap.rebind
    rw [show (h.write v b).vars[i]? = some o from ho]
    rfl
  refine ⟨W.good.rebind i (by simpa [Heap.write] using hl), by rw [hR], ?_, ?_, fun k hk hs => ?_⟩
  · rw [hR]
    apply List.ext_getElem (by simp)
    intro k h1 h2
    simp only [List.getElem_map, List.getElem_set]
    split
    · rename_i hik
      subst hik
      rw [List.getElem?_eq_getElem hoi] at hov
      simp only [Option.some.injEq] at hov
      rw [hov]
    · rfl
  · have := value_write_self v b hb hl
    rw [hR]
    simp only [get, view?, ho, Option.bind_some]
    rw [List.getElem?_set_self hoi]
    simp only [Option.map_some, Option.some.injEq]
    simp only [value, Heap.write, List.getD_eq_getElem?_getD] at this ⊢
    rw [List.getElem?_set_self hl] at this ⊢
    cases htr : v.tr
    · simp [htr]
    · simp [htr]
  · have := W.keep k hk hs
    rw [← this, hR]
    show Option.map _ (view? ⟨_, h.objs.set o _, h.vars⟩ k) = Option.map _ (h.view? k)
    have hne : ∀ o', h.vars[k]? = some o' → o' ≠ o := by
      rintro o' ho' rfl
      exact hs ⟨v, v, by simp [view?, ho', hov], hv', rfl⟩
    congr 1
    unfold view?
    cases hk' : h.vars[k]? with
    | none => rfl
    | some o' => simp only [Option.bind_some]; rw [List.getElem?_set_ne (Ne.symm (hne o' hk'))]

theorem write_value_mem {h : Heap K} (g : h.Good) {v : View} (hl : v.loc < h.mem.length) :
    h.write v (h.value v) = h := by
  have hw : (h.mem[v.loc]).WF := g.wf _ (List.getElem_mem hl)
  simp only [Heap.write, value]
  rw [List.getD_eq_getElem _ _ hl]
  cases htr : v.tr <;> simp [Arr.transpose_transpose _ hw]

/-- **C25** In-place operations change only their left operand and what shares memory with it; they bind no
new variable and do not change which variables share memory. -/
theorem c25_inplace (h : Heap K) (g : h.Good) (c : Cmd K) (i : Nat) (hi : c.target = some i) :
    ∃ r, h.inplaceResult c = some r ∧ (∀ e, r = .error e → h.step c = .error e) ∧
      (∀ a, r = .ok a → ∃ h', h.step c = .ok h' ∧ InPlace h h' i a) := by
  cases c with
  | addIn i j =>
    simp only [Cmd.target, Option.some.injEq] at hi
    subst hi
    refine ⟨_, rfl, ?_⟩
    cases hv : h.var i with
    | error e => simp [step, hv, bind, Except.bind]
    | ok v =>
      cases hw : h.var j with
      | error e => simp [step, hv, hw, bind, Except.bind]
      | ok w =>
        simp only [step, hv, hw, bind, Except.bind, addInto, pure, Except.pure]
        cases hx : (h.value v).add (h.value w) with
        | error e => simp
        | ok x =>
          refine ⟨by simp, ?_⟩
          rintro a ⟨⟩
          exact ⟨_, rfl, inplace_write g hv (add_wf (value_wf g v) (value_wf g w) hx)⟩
  | subIn i j =>
    simp only [Cmd.target, Option.some.injEq] at hi
    subst hi
    refine ⟨_, rfl, ?_⟩
    cases hv : h.var i with
    | error e => simp [step, hv, bind, Except.bind]
    | ok v =>
      cases hw : h.var j with
      | error e => simp [step, hv, hw, bind, Except.bind]
      | ok w =>
        simp only [step, hv, hw, bind, Except.bind, subInto, pure, Except.pure]
        cases hx : (h.value v).add (negArr (h.value w)) with
        | error e => simp
        | ok x =>
          refine ⟨by simp, ?_⟩
          rintro a ⟨⟩
          exact ⟨_, rfl, inplace_write g hv (add_wf (value_wf g v) (negArr_wf (value_wf g w)) hx)⟩
  | mulIn i j =>
    simp only [Cmd.target, Option.some.injEq] at hi
    subst hi
    refine ⟨_, rfl, ?_⟩
    cases hv : h.var i with
    | error e => simp [step, hv, bind, Except.bind]
    | ok v =>
      cases hw : h.var j with
      | error e => simp [step, hv, hw, bind, Except.bind]
      | ok w =>
        simp only [step, hv, hw, bind, Except.bind, mulInto, pure, Except.pure]
        cases hx : (h.value v).matmul (h.value w) with
        | error e => simp
        | ok x =>
          simp only
          by_cases hs : x.rows = (h.value v).rows ∧ x.cols = (h.value v).cols
          · rw [if_pos hs, if_pos hs]
            refine ⟨by simp, ?_⟩
            rintro a ⟨⟩
            exact ⟨_, rfl, inplace_write g hv (matmul_wf hx)⟩
          · rw [if_neg hs, if_neg hs]
            simp
  | smulIn z i =>
    simp only [Cmd.target, Option.some.injEq] at hi
    subst hi
    refine ⟨_, rfl, ?_⟩
    cases hv : h.var i with
    | error e => simp [step, hv, bind, Except.bind]
    | ok v =>
      simp only [step, hv, bind, Except.bind, pure, Except.pure]
      refine ⟨by simp, ?_⟩
      rintro a ⟨⟩
      exact ⟨_, rfl, inplace_write g hv (Arr.smul_wf z (value_wf g v))⟩
  | conjIn i =>
    simp only [Cmd.target, Option.some.injEq] at hi
    subst hi
    refine ⟨_, rfl, ?_⟩
    cases hv : h.var i with
    | error e => simp [step, hv, bind, Except.bind]
    | ok v =>
      simp only [step, hv, bind, Except.bind, pure, Except.pure]
      refine ⟨by simp, ?_⟩
      rintro a ⟨⟩
      exact ⟨_, rfl, inplace_write g hv (Arr.conj_wf (value_wf g v))⟩
  | dagIn i =>
    simp only [Cmd.target, Option.some.injEq] at hi
    subst hi
    refine ⟨_, rfl, ?_⟩
    cases hv : h.var i with
    | error e => simp [step, hv, bind, Except.bind]
    | ok v =>
      simp only [step, hv, bind, Except.bind, pure, Except.pure]
      refine ⟨by simp, ?_⟩
      rintro a ⟨⟩
      exact ⟨_, rfl, inplace_flip g hv (Arr.conj_wf (value_wf g v))⟩
  | transposeIn i =>
    simp only [Cmd.target, Option.some.injEq] at hi
    subst hi
    refine ⟨_, rfl, ?_⟩
    cases hv : h.var i with
    | error e => simp [step, hv, bind, Except.bind]
    | ok v =>
      simp only [step, hv, bind, Except.bind, pure, Except.pure]
      refine ⟨by simp, ?_⟩
      rintro a ⟨⟩
      refine ⟨_, rfl, ?_⟩
      have F := inplace_flip g hv (value_wf g v)
      rw [write_value_mem g (var_lt g hv)] at F
      exact F
  | scalIn op z i =>
    simp only [Cmd.target, Option.some.injEq] at hi
    subst hi
    refine ⟨_, rfl, ?_⟩
    cases hv : h.var i with
    | error e => simp [step, hv, bind, Except.bind]
    | ok v =>
      simp only [step, hv, bind, Except.bind, pure, Except.pure]
      refine ⟨by simp, ?_⟩
      rintro a ⟨⟩
      exact ⟨_, rfl, inplace_write g hv (scal_wf op z (value_wf g v))⟩
  | setItem r c z i =>
    simp only [Cmd.target, Option.some.injEq] at hi
    subst hi
    refine ⟨_, rfl, ?_⟩
    cases hv : h.var i with
    | error e => simp [step, hv, bind, Except.bind]
    | ok v =>
      simp only [step, hv, bind, Except.bind, pure, Except.pure]
      cases hx : (h.value v).setEntry r c z with
      | error e => simp
      | ok x =>
        refine ⟨by simp, ?_⟩
        rintro a ⟨⟩
        exact ⟨_, rfl, inplace_write g hv (setEntry_wf (value_wf g v) hx)⟩
  | scal op z i => simp [Cmd.target] at hi
  | identityLike i => simp [Cmd.target] at hi
  | ptrace order dims remove i => simp [Cmd.target] at hi
  | truncate l i => simp [Cmd.target] at hi
  | rename i => simp [Cmd.target] at hi
  | ptraceIn order dims remove i => simp [Cmd.target] at hi
  | array a => simp [Cmd.target] at hi
  | wrap i => simp [Cmd.target] at hi
  | copy i => simp [Cmd.target] at hi
  | add i j => simp [Cmd.target] at hi
  | sub i j => simp [Cmd.target] at hi
  | mul i j => simp [Cmd.target] at hi
  | smul z i => simp [Cmd.target] at hi
  | dag i => simp [Cmd.target] at hi
  | conj i => simp [Cmd.target] at hi
  | transpose i => simp [Cmd.target] at hi
  | kron i j => simp [Cmd.target] at hi

/-- A new variable does not change the views of the old ones. -/
theorem view_append {h : Heap K} (g : h.Good) (l : List View) (m : List Nat) {k : Nat} (hk : k < h.vars.length) (mem : List (Arr K)) :
    (⟨mem, h.objs ++ l, h.vars ++ m⟩ : Heap K).view? k = h.view? k := by
  have ho := g.obj _ (List.getElem_mem hk)
  simp only [view?]
  rw [List.getElem?_append_left hk, List.getElem?_eq_getElem hk, Option.bind_some, Option.bind_some, List.getElem?_append_left ho]

/-- **C25** Wrapping an array (or an operator) shares it: the new operator is a new object that shows the same memory and nothing
changes. -/
theorem c25_wrap (h : Heap K) (g : h.Good) (i : Nat) (hi : i < h.vars.length) :
    ∃ h', h.step (.wrap i) = .ok h' ∧ h'.Good ∧ (∀ k < h.vars.length, h'.get k = h.get k) ∧
      h'.get h.vars.length = h.get i ∧ h'.Shares h.vars.length i ∧ ∀ k < h.vars.length, ¬ h'.Same h.vars.length k := by
  obtain ⟨v, hv, hl⟩ := g.view hi
  have hvar : h.var i = .ok v := by simp [var, hv]
  have hnew : (push (h, v)).view? h.vars.length = some v := by
    simp only [view?, push]
    rw [List.getElem?_append_right (le_refl _)]
    simp
  have hold : ∀ k < h.vars.length, (push (h, v)).view? k = h.view? k := fun k hk => view_append g [v] _ hk _
  refine ⟨push (h, v), by simp [step, hvar, bind, Except.bind, pure, Except.pure], g.push hl, fun k hk => ?_, ?_, ?_, fun k hk hs => ?_⟩
  · simp only [get, hold k hk]; rfl
  · simp only [get, hnew, hv]; rfl
  · exact ⟨v, v, hnew, by rw [hold i hi, hv], rfl⟩
  · have ho := g.obj _ (List.getElem_mem hk)
    simp only [Same, push] at hs
    rw [List.getElem?_append_right (le_refl _), List.getElem?_append_left hk, List.getElem?_eq_getElem hk] at hs
    simp at hs
    omega

/-- **C25** `b = a` and `b = a.truncate_to_subspace(None)`: the new variable is the same object and nothing changes. -/
theorem c25_rename (h : Heap K) (g : h.Good) (i : Nat) (hi : i < h.vars.length) :
    ∃ h', h.step (.rename i) = .ok h' ∧ h'.Good ∧ (∀ k < h.vars.length, h'.get k = h.get k) ∧
      h'.get h.vars.length = h.get i ∧ h'.Same h.vars.length i := by
  have hold : ∀ k < h.vars.length, (⟨h.mem, h.objs, h.vars ++ [h.vars[i]]⟩ : Heap K).view? k = h.view? k := fun k hk => by
    have := view_append g [] [h.vars[i]] hk h.mem
    rwa [List.append_nil] at this
  refine ⟨⟨h.mem, h.objs, h.vars ++ [h.vars[i]]⟩, by simp [step, List.getElem?_eq_getElem hi, pure, Except.pure],
    ⟨fun o ho => ?_, g.loc, g.wf⟩, fun k hk => ?_, ?_, ?_⟩
  · rcases List.mem_append.mp ho with h1 | h1
    · exact g.obj o h1
    · rw [List.mem_singleton.mp h1]; exact g.obj _ (List.getElem_mem hi)
  · simp only [get, hold k hk]; rfl
  · simp only [get, view?]
    rw [List.getElem?_append_right (le_refl _), List.getElem?_eq_getElem hi]
    simp only [Nat.sub_self, List.getElem?_cons_zero, Option.bind_some]
    rfl
  · simp only [Same]
    rw [List.getElem?_append_right (le_refl _), List.getElem?_append_left hi, List.getElem?_eq_getElem hi]
    simp

/-- **C25** `a.ptrace(..., do_copy=False)`: the object gets new memory with the partial trace; everything that refers to the same object
sees it, and no other variable changes, not even those which shared memory with it before. -/
theorem c25_ptrace_inplace (h : Heap K) (g : h.Good) (order : List Nat → List Nat) (dims remove : List Nat) (i : Nat)
    (hi : i < h.vars.length) :
    ∃ a, h.get i = some a ∧ (∀ e, Operator.ptrace order a dims remove = .error e → h.step (.ptraceIn order dims remove i) = .error e) ∧
      ∀ b, Operator.ptrace order a dims remove = .ok b → ∃ h', h.step (.ptraceIn order dims remove i) = .ok h' ∧ h'.Good ∧
        h'.vars = h.vars ∧ (∀ k, h.Same k i → h'.get k = some b) ∧
        (∀ k < h.vars.length, ¬ h.Same k i → h'.get k = h.get k ∧ ¬ h'.Shares k i) := by
  obtain ⟨v, hv, hl⟩ := g.view hi
  have hvar : h.var i = .ok v := by simp [var, hv]
  obtain ⟨o, ho, hov⟩ := view_some hv
  have hoi : o < h.objs.length := (List.getElem?_eq_some_iff.mp hov).1
  refine ⟨h.value v, by simp [get, hv], ?_, ?_⟩
  · intro e he
    simp [step, hvar, he, bind, Except.bind]
  intro b hb
  have hR : (h.alloc b).1.rebind i (h.alloc b).2 = ⟨h.mem ++ [b], h.objs.set o ⟨h.mem.length, false⟩, h.vars⟩ := by
    unfold Heap.rebind
    rw [show (h.alloc b).1.vars[i]? = some o from ho]
    rfl
  have hself : ∀ k, h.Same k i →
      (⟨h.mem ++ [b], h.objs.set o ⟨h.mem.length, false⟩, h.vars⟩ : Heap K).view? k = some ⟨h.mem.length, false⟩ := by
    intro k hk
    simp only [view?]
    rw [show h.vars[k]? = some o from hk.trans ho, Option.bind_some, List.getElem?_set_self hoi]
  have hother : ∀ k, ¬ h.Same k i →
      (⟨h.mem ++ [b], h.objs.set o ⟨h.mem.length, false⟩, h.vars⟩ : Heap K).view? k = h.view? k := by
    intro k hk
    simp only [view?]
    cases hk' : h.vars[k]? with
    | none => rfl
    | some o' =>
      simp only [Option.bind_some]
      rw [List.getElem?_set_ne (fun he => hk (by rw [Same, hk', ho, he]))]
  refine ⟨(h.alloc b).1.rebind i (h.alloc b).2, by simp [step, hvar, hb, bind, Except.bind, pure, Except.pure],
    (g.alloc (ptrace_wf hb)).rebind i (by simp [alloc]), by rw [hR], fun k hk => ?_, fun k hk hn => ⟨?_, ?_⟩⟩
  · rw [hR, get, hself k hk, Option.map_some]
    exact congrArg some (value_alloc_new h b)
  · rw [hR, get, hother k hn, get]
    obtain ⟨w, hw, hwl⟩ := g.view hk
    rw [hw, Option.map_some, Option.map_some]
    exact congrArg some (value_alloc_old b hwl)
  · rw [hR]
    rintro ⟨w, u, h1, h2, h3⟩
    rw [hother k hn] at h1
    rw [hself i rfl] at h2
    obtain ⟨w', hw', hwl⟩ := g.view hk
    rw [hw'] at h1
    cases h1; cases h2
    simp only at h3
    omega

/-- Programs whose arrays are well formed. -/
def ProgOk (cs : List (Cmd K)) : Prop := ∀ c ∈ cs, CmdOk c

/-- Variable `i` is not the left operand of an in-place operation of the program, and neither is a variable
that shares memory with it at that time; and its object does not get new memory. -/
def Untouched (h : Heap K) (i : Nat) : List (Cmd K) → Prop
  | [] => True
  | c :: cs => ((∀ j, c.target = some j → ¬ h.Shares i j) ∧ ∀ j, c.rebinds = some j → ¬ h.Same i j) ∧
      match h.step c with
      | .ok h' => Untouched h' i cs
      | .error _ => Untouched h i cs

/-- One step keeps the heap well formed and the value of every variable that is not touched. -/
theorem step_frame (h : Heap K) (g : h.Good) (c : Cmd K) (hc : CmdOk c) (h' : Heap K) (hs : h.step c = .ok h') :
    h'.Good ∧ h.vars.length ≤ h'.vars.length ∧
    ∀ k < h.vars.length, (∀ j, c.target = some j → ¬ h.Shares k j) → (∀ j, c.rebinds = some j → ¬ h.Same k j) → h'.get k = h.get k := by
  have pureCase : ∀ r, h.pureResult c = some r → h'.Good ∧ h.vars.length ≤ h'.vars.length ∧
      ∀ k < h.vars.length, (∀ j, c.target = some j → ¬ h.Shares k j) → (∀ j, c.rebinds = some j → ¬ h.Same k j) → h'.get k = h.get k := by
    intro r hr
    obtain ⟨h1, h2⟩ := c25_pure h g c hc r hr
    cases r with
    | error e => rw [h1 e rfl] at hs; simp at hs
    | ok a =>
      obtain ⟨h'', hs', F⟩ := h2 a rfl
      rw [hs] at hs'
      simp only [Except.ok.injEq] at hs'
      subst hs'
      obtain ⟨v, hv, hv', -, -⟩ := F.bound
      refine ⟨F.good, by rw [hv']; simp, fun k hk _ _ => ?_⟩
      have : h'.view? k = h.view? k := by
        have := view_append g [v] [h.objs.length] hk h'.mem
        rw [← hv, ← hv'] at this
        exact this
      obtain ⟨w, hw, hwl⟩ := g.view hk
      simp only [get, this, hw, Option.map_some, Option.some.injEq]
      exact F.keep _ hwl
  have inCase : ∀ i, c.target = some i → h'.Good ∧ h.vars.length ≤ h'.vars.length ∧
      ∀ k < h.vars.length, (∀ j, c.target = some j → ¬ h.Shares k j) → (∀ j, c.rebinds = some j → ¬ h.Same k j) → h'.get k = h.get k := by
    intro i hi
    obtain ⟨r, -, h1, h2⟩ := c25_inplace h g c i hi
    cases r with
    | error e => rw [h1 e rfl] at hs; simp at hs
    | ok a =>
      obtain ⟨h'', hs', F⟩ := h2 a rfl
      rw [hs] at hs'
      simp only [Except.ok.injEq] at hs'
      subst hs'
      exact ⟨F.good, by rw [F.same_vars], fun k hk hn _ => F.keep k hk (hn i hi)⟩
  cases c with
  | wrap i =>
    by_cases hi : i < h.vars.length
    · obtain ⟨h'', hs', hg, hk, -, ⟨v, w, hv, -, -⟩, -⟩ := c25_wrap h g i hi
      rw [hs] at hs'
      simp only [Except.ok.injEq] at hs'
      subst hs'
      exact ⟨hg, Nat.le_of_lt (view_lt hv), fun k hlt _ _ => hk k hlt⟩
    · have : h.vars[i]? = none := List.getElem?_eq_none (by omega)
      simp [step, var, view?, this, bind, Except.bind] at hs
  | rename i =>
    by_cases hi : i < h.vars.length
    · obtain ⟨h'', hs', hg, hk, -, -⟩ := c25_rename h g i hi
      have hlen : h'.vars.length = h.vars.length + 1 := by
        simp only [step, List.getElem?_eq_getElem hi, pure, Except.pure, Except.ok.injEq] at hs
        rw [← hs]; simp
      rw [hs] at hs'
      simp only [Except.ok.injEq] at hs'
      subst hs'
      exact ⟨hg, by omega, fun k hlt _ _ => hk k hlt⟩
    · have : h.vars[i]? = none := List.getElem?_eq_none (by omega)
      simp [step, this] at hs
  | ptraceIn order dims remove i =>
    by_cases hi : i < h.vars.length
    · obtain ⟨a, -, h1, h2⟩ := c25_ptrace_inplace h g order dims remove i hi
      cases hr : Operator.ptrace order a dims remove with
      | error e => rw [h1 e hr] at hs; simp at hs
      | ok b =>
        obtain ⟨h'', hs', hg, hv, -, hk⟩ := h2 b hr
        rw [hs] at hs'
        simp only [Except.ok.injEq] at hs'
        subst hs'
        exact ⟨hg, by rw [hv], fun k hlt _ hn => (hk k hlt (hn i rfl)).1⟩
    · have : h.vars[i]? = none := List.getElem?_eq_none (by omega)
      simp [step, var, view?, this, bind, Except.bind] at hs
  | scal op z i => exact pureCase _ rfl
  | identityLike i => exact pureCase _ rfl
  | ptrace order dims remove i => exact pureCase _ rfl
  | truncate l i => exact pureCase _ rfl
  | scalIn op z i => exact inCase i rfl
  | setItem r c z i => exact inCase i rfl
  | array a => exact pureCase _ rfl
  | copy i => exact pureCase _ rfl
  | add i j => exact pureCase _ rfl
  | sub i j => exact pureCase _ rfl
  | mul i j => exact pureCase _ rfl
  | smul z i => exact pureCase _ rfl
  | dag i => exact pureCase _ rfl
  | conj i => exact pureCase _ rfl
  | transpose i => exact pureCase _ rfl
  | kron i j => exact pureCase _ rfl
  | addIn i j => exact inCase i rfl
  | subIn i j => exact inCase i rfl
  | mulIn i j => exact inCase i rfl
  | smulIn z i => exact inCase i rfl
  | dagIn i => exact inCase i rfl
  | conjIn i => exact inCase i rfl
  | transposeIn i => exact inCase i rfl

/-- **C25** For every program of operator operations: a variable keeps its value as long as no in-place
operation is applied to it or to something sharing its memory.  In particular arithmetic never changes
its operands. -/
theorem c25_history (h : Heap K) (g : h.Good) (cs : List (Cmd K)) (hcs : ProgOk cs) (i : Nat)
    (hi : i < h.vars.length) (hu : h.Untouched i cs) : (h.run cs).get i = h.get i := by
  induction cs generalizing h with
  | nil => rfl
  | cons c cs ih =>
    have hcs' : ProgOk cs := fun d hd => hcs d (List.mem_cons_of_mem _ hd)
    obtain ⟨h1, h2⟩ := hu
    cases hs : h.step c with
    | error e =>
      simp only [run, hs]
      rw [hs] at h2
      exact ih h g hcs' hi h2
    | ok h' =>
      simp only [run, hs]
      rw [hs] at h2
      obtain ⟨g', hle, hk⟩ := step_frame h g c (hcs c (List.mem_cons_self)) h' hs
      rw [ih h' g' hcs' (by omega) h2, hk i hi h1.1 h1.2]

/-- **C25** A program without in-place operations changes no variable. -/
theorem c25_no_inplace (h : Heap K) (g : h.Good) (cs : List (Cmd K)) (hcs : ProgOk cs)
    (hp : ∀ c ∈ cs, c.target = none ∧ c.rebinds = none) (i : Nat) (hi : i < h.vars.length) : (h.run cs).get i = h.get i := by
  refine c25_history h g cs hcs i hi ?_
  clear hi hcs g
  induction cs generalizing h with
  | nil => trivial
  | cons c cs ih =>
    have hp' : ∀ c ∈ cs, c.target = none ∧ c.rebinds = none := fun d hd => hp d (List.mem_cons_of_mem _ hd)
    refine ⟨⟨fun j hj => by rw [(hp c (List.mem_cons_self)).1] at hj; simp at hj,
      fun j hj => by rw [(hp c (List.mem_cons_self)).2] at hj; simp at hj⟩, ?_⟩
    cases h.step c with
    | ok h' => exact ih h' hp'
    | error e => exact ih h hp'

omit [StarRing K] in
theorem entry_map {a : Arr K} (ha : a.WF) (f : K → K) {i j : Nat} (hi : i < a.rows) (hj : j < a.cols) :
    (⟨a.rows, a.cols, a.buf.map f⟩ : Arr K).entry i j = f (a.entry i j) := by
  have hl : i * a.cols + j < a.buf.length := by rw [ha]; exact Arr.index_lt hi hj
  simp only [Arr.entry]
  rw [List.getD_eq_getElem _ _ (by simpa using hl), List.getD_eq_getElem _ _ hl, List.getElem_map]

omit [StarRing K] in
/-- **C25** The values computed with scalars and by assignments: every element plus, minus, divided by the scalar; an assignment changes
the addressed element only, negative indices count from the end and an index outside raises IndexError; the identity has the size of a
square matrix, others raise AssertionError. -/
theorem c25_values (a : Arr K) (ha : a.WF) (z : K) :
    (∀ i < a.rows, ∀ j < a.cols, (a.scal .add z).entry i j = a.entry i j + z ∧ (a.scal .sub z).entry i j = a.entry i j - z ∧
      (a.scal .div z).entry i j = a.entry i j / z) ∧
    (∀ r < a.rows, ∀ c < a.cols, ∀ r' c' : Int, (r' = r ∨ r' = r - a.rows) → (c' = c ∨ c' = c - a.cols) →
      ∃ b, a.setEntry r' c' z = .ok b ∧ b.rows = a.rows ∧ b.cols = a.cols ∧
        ∀ i < a.rows, ∀ j < a.cols, b.entry i j = if i = r ∧ j = c then z else a.entry i j) ∧
    (∀ r c : Int, (r < -a.rows ∨ a.rows ≤ r) → a.setEntry r c z = .error .indexError) ∧
    (∀ r c : Int, (c < -a.cols ∨ a.cols ≤ c) → a.setEntry r c z = .error .indexError) ∧
    (a.rows ≠ a.cols → a.identityLike = .error .assertionError) ∧
    (a.rows = a.cols → ∃ b, a.identityLike = .ok b ∧ b.rows = a.rows ∧ b.cols = a.rows ∧
      ∀ i < a.rows, ∀ j < a.rows, b.entry i j = if i = j then 1 else 0) := by
  refine ⟨fun i hi j hj => ⟨entry_map ha _ hi hj, entry_map ha _ hi hj, entry_map ha _ hi hj⟩, ?_, ?_, ?_, ?_, ?_⟩
  · intro r hr c hc r' c' hr' hc'
    have h1 : normIdx a.rows r' = .ok r := by
      rcases hr' with rfl | rfl
      · exact normIdx_nat hr
      · rw [normIdx, if_neg (by omega), if_pos (by omega)]; simp
    have h2 : normIdx a.cols c' = .ok c := by
      rcases hc' with rfl | rfl
      · exact normIdx_nat hc
      · rw [normIdx, if_neg (by omega), if_pos (by omega)]; simp
    refine ⟨⟨a.rows, a.cols, a.buf.set (r * a.cols + c) z⟩, by simp [Arr.setEntry, h1, h2, bind, Except.bind, pure, Except.pure], rfl, rfl, ?_⟩
    intro i hi j hj
    have hl : i * a.cols + j < a.buf.length := by rw [ha]; exact Arr.index_lt hi hj
    simp only [Arr.entry]
    rw [List.getD_eq_getElem _ _ (by simpa using hl), List.getD_eq_getElem _ _ hl, List.getElem_set]
    congr 1
    rw [eq_iff_iff]
    constructor
    · intro he
      have e1 := congrArg (· / a.cols) he
      have e2 := congrArg (· % a.cols) he
      simp only [Arr.index_div hc, Arr.index_div hj, Arr.index_mod hc, Arr.index_mod hj] at e1 e2
      exact ⟨e1.symm, e2.symm⟩
    · rintro ⟨rfl, rfl⟩; rfl
  · intro r c hr
    have : normIdx a.rows r = .error .indexError := by rw [normIdx, if_neg (by omega), if_neg (by omega)]
    simp [Arr.setEntry, this, bind, Except.bind]
  · intro r c hc
    have : normIdx a.cols c = .error .indexError := by rw [normIdx, if_neg (by omega), if_neg (by omega)]
    unfold Arr.setEntry
    cases h1 : normIdx a.rows r with
    | error e =>
      have : e = .indexError := by
        rw [normIdx] at h1; split_ifs at h1; cases h1; rfl
      simp [this, bind, Except.bind]
    | ok i => simp [this, bind, Except.bind]
  · intro h; simp [Arr.identityLike, h]
  · intro h
    refine ⟨Arr.eye K a.rows, by simp [Arr.identityLike, h], rfl, rfl, fun i hi j hj => ?_⟩
    exact Arr.entry_ofFn _ hi hj

/-- Non-vacuity: an operator wrapping a caller's array is changed in place, the caller's array with it,
while the sum computed before keeps its value. -/
example : ((⟨[], [], []⟩ : Heap ℚ).run [.array ⟨1, 1, [2]⟩, .wrap 0, .add 1 1, .addIn 1 2]).get 0 = some ⟨1, 1, [6]⟩ ∧
    ((⟨[], [], []⟩ : Heap ℚ).run [.array ⟨1, 1, [2]⟩, .wrap 0, .add 1 1, .addIn 1 2]).get 2 = some ⟨1, 1, [4]⟩ ∧
    (⟨[], [], []⟩ : Heap ℚ).Good :=
  ⟨by norm_num [run, step, push, alloc, var, view?, value, write, addInto, get, bind, Except.bind, pure, Except.pure, Arr.add],
    by norm_num [run, step, push, alloc, var, view?, value, write, addInto, get, bind, Except.bind, pure, Except.pure, Arr.add],
    by simp, by simp, by simp⟩

/-- Non-vacuity: an in-place transposition is seen through another name of the object (`b = a.truncate_to_subspace(None)`, variable 1)
but not through another operator wrapping the same array (variable 2), while an assignment to an element is seen by all three. -/
example : let h := (⟨[], [], []⟩ : Heap ℚ).run [.array ⟨1, 2, [2, 3]⟩, .rename 0, .wrap 0, .transposeIn 0, .setItem 1 0 5 1]
    h.get 0 = some ⟨2, 1, [2, 5]⟩ ∧ h.get 1 = some ⟨2, 1, [2, 5]⟩ ∧ h.get 2 = some ⟨1, 2, [2, 5]⟩ := by
  norm_num [run, step, push, alloc, var, view?, value, write, get, rebind, bind, Except.bind, pure, Except.pure, Arr.transpose, Arr.ofFn,
    Arr.entry, Arr.setEntry, normIdx, List.range_succ]

end Heap
end Verif.Operator
