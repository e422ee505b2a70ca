import Verif.Transfer.ComposeThms

/-!
# C146: `TransferFunction.plot_pulse`

What is drawn is described by the rectangles of `matplotlib.pyplot.bar`; colours, titles and the backend are not modelled.
-/

namespace Verif.Transfer
open Verif Verif.Transfer.TF

/-! ## Model -/

/-- One rectangle of `plt.bar`. -/
structure Bar (K : Type) where
  left : K
  right : K
  height : K
  deriving DecidableEq

/-- A figure: filled rectangles, outlines (`fill=False`) and the labels of the axes, if set. -/
structure Figure (K : Type) where
  filled : List (Bar K)
  outlines : List (Bar K)
  labels : Option (String × String)

section
variable {K : Type} [Field K] {c : Nat}

/-- `np.cumsum`, starting from `s`. -/
def npCumsum (s : K) : List K → List K
  | [] => []
  | a :: l => (s + a) :: npCumsum (s + a) l

/-- `plt.bar(x, height, width)` with `align='center'`: positions and heights are broadcast against each other, `ValueError` if their
lengths differ and neither is 1. -/
def bars (x heights : List K) (w : K) : Except PyErr (List (Bar K)) :=
  let bar := fun p h => (⟨p - 1 / 2 * w, p + 1 / 2 * w, h⟩ : Bar K)
  if x.length = heights.length then .ok (List.zipWith bar x heights)
  else match x, heights with
    | [p], hs => .ok (hs.map fun h => bar p h)
    | ps, [h] => .ok (ps.map fun p => bar p h)
    | _, _ => .error .valueError

/-- One pass of the loop of `plot_pulse`, transfer_function.py:471-478.  `None[0]` raises `TypeError`, an index out of range
`IndexError`. -/
def drawControl (b : Base K) (ps : Nat) (x y : List K) : Except PyErr (Figure K) :=
  match b.xTimes with
  | none => .error .typeError
  | some X =>
    match X.head? with
    | none => .error .indexError
    | some x₀ => do
      let filled ← bars ((npCumsum 0 X).map fun s => s - 1 / 2 * x₀) x x₀
      match b.yTimes with
      | none => .error .typeError
      | some Y =>
        match Y.head? with
        | none => .error .indexError
        | some y₀ =>
          match (npCumsum 0 X)[ps]?, X[ps]? with
          | some s, some d => do
            let outlines ← bars ((npCumsum 0 Y).map fun t => t - 1 / 2 * y₀ + s - d) y y₀
            pure ⟨filled, outlines, none⟩
          | _, _ => .error .indexError

/-- `plt.xlabel` and `plt.ylabel` after the loop act on the current figure only, transfer_function.py:479-480; without any figure a
new one is opened. -/
def labelCurrent (lab : String × String) (figs : List (Figure K)) : List (Figure K) :=
  match figs.getLast? with
  | none => [⟨[], [], some lab⟩]
  | some f => figs.dropLast ++ [{ f with labels := some lab }]

/-- `TransferFunction.plot_pulse`, transfer_function.py:447-481. -/
def plotPulse (t : TF K c) (y : Pulse K c) (lab : String × String := ("Time (a.u.)", "Ctrl. Amplitude (a.u.)")) :
    Except PyErr (List (Figure K)) := do
  let (t', x) ← t.call y
  let (ps, _) ← t'.base.numPadding
  let figs ← (List.finRange c).mapM fun k => drawControl t'.base ps (x.map fun r => r k) (y.map fun r => r k)
  pure (labelCurrent lab figs)

/-! ## Lemmas -/

theorem npCumsum_length (s : K) (l : List K) : (npCumsum s l).length = l.length := by
  induction l generalizing s with
  | nil => rfl
  | cons a l ih => simp [npCumsum, ih]

theorem npCumsum_get (s : K) (l : List K) (i : Nat) (h : i < l.length) : (npCumsum s l)[i]? = some (s + (l.take (i + 1)).sum) := by
  induction l generalizing s i with
  | nil => simp at h
  | cons a l ih =>
    cases i with
    | zero => simp [npCumsum]
    | succ i =>
      rw [npCumsum, List.getElem?_cons_succ, ih _ _ (by simpa using h)]
      simp [add_assoc]

theorem mapM_ok {α β : Type} (f : α → Except PyErr β) (g : α → β) (l : List α) (h : ∀ a ∈ l, f a = .ok (g a)) :
    l.mapM f = .ok (l.map g) := by
  induction l with
  | nil => rfl
  | cons a l ih =>
    rw [List.mapM_cons, h a (by simp), ih fun b hb => h b (by simp [hb])]
    rfl

theorem call_base : ∀ {c : Nat} (t t' : TF K c) (y x : Pulse K c), t.call y = .ok (t', x) → t'.base = t.base := by
  intro c t t' y x h
  cases t with
  | identity b =>
    simp only [TF.call, Except.ok.injEq, Prod.mk.injEq] at h
    rw [← h.1]
  | oversampling b =>
    simp only [TF.call] at h
    obtain ⟨_, -, h⟩ := bind_ok h
    obtain ⟨_, -, h⟩ := bind_ok h
    simp only [pure, Except.pure, Except.ok.injEq, Prod.mk.injEq] at h
    rw [← h.1]
  | matrix b o m ch =>
    simp only [TF.call] at h
    obtain ⟨_, -, h⟩ := bind_ok h
    obtain ⟨_, -, h⟩ := bind_ok h
    obtain ⟨_, -, h⟩ := bind_ok h
    simp only [pure, Except.pure, Except.ok.injEq, Prod.mk.injEq] at h
    rw [← h.1]
    rfl
  | concat b t₁ t₂ =>
    simp only [TF.call] at h
    obtain ⟨_, -, h⟩ := bind_ok h
    obtain ⟨_, -, h⟩ := bind_ok h
    obtain ⟨_, -, h⟩ := bind_ok h
    simp only [pure, Except.pure, Except.ok.injEq, Prod.mk.injEq] at h
    rw [← h.1]
    rfl
  | parallel b t₁ t₂ =>
    simp only [TF.call] at h
    obtain ⟨_, -, h⟩ := bind_ok h
    obtain ⟨_, -, h⟩ := bind_ok h
    obtain ⟨_, -, h⟩ := bind_ok h
    obtain ⟨_, -, h⟩ := bind_ok h
    simp only [pure, Except.pure, Except.ok.injEq, Prod.mk.injEq] at h
    rw [← h.1]
    rfl

omit [Field K] in
theorem labelCurrent_get (lab : String × String) (figs : List (Figure K)) (hne : figs ≠ []) :
    (labelCurrent lab figs).length = figs.length ∧
    ∀ i f, figs[i]? = some f → ∃ g, (labelCurrent lab figs)[i]? = some g ∧ g.filled = f.filled ∧ g.outlines = f.outlines ∧
      g.labels = if i + 1 = figs.length then some lab else f.labels := by
  obtain ⟨l, a, rfl⟩ : ∃ l a, figs = l ++ [a] := ⟨figs.dropLast, figs.getLast hne, (List.dropLast_append_getLast hne).symm⟩
  unfold labelCurrent
  rw [List.getLast?_append, List.getLast?_singleton]
  simp only [Option.some_or, List.dropLast_concat]
  refine ⟨by simp, fun i f hi => ?_⟩
  by_cases h : i < l.length
  · rw [List.getElem?_append_left h] at hi
    refine ⟨f, by rw [List.getElem?_append_left h, hi], rfl, rfl, ?_⟩
    rw [if_neg (by simp; omega)]
  · have h' : i = l.length := by
      have := (List.getElem?_eq_some_iff.mp hi).1
      simp at this
      omega
    subst h'
    simp at hi
    subst hi
    exact ⟨{ a with labels := some lab }, by simp, rfl, rfl, by simp⟩

theorem bars_get {x heights : List K} (w : K) (h : x.length = heights.length) :
    ∃ l, bars x heights w = .ok l ∧ l.length = x.length ∧
      ∀ (i : Nat) p v, x[i]? = some p → heights[i]? = some v → l[i]? = some (⟨p - 1 / 2 * w, p + 1 / 2 * w, v⟩ : Bar K) := by
  refine ⟨_, by unfold bars; rw [if_pos h], by simp [h], fun i p v h1 h2 => ?_⟩
  rw [List.getElem?_zipWith, h1, h2]

/-- What is drawn for one control. -/
theorem drawControl_get [CharZero K] {b : Base K} {X Y : List K} (hX : b.xTimes = some X) (hY : b.yTimes = some Y) {ps : Nat} (hp : ps < X.length)
    (hY0 : Y ≠ []) {x y : List K} (hx : x.length = X.length) (hy : y.length = Y.length) :
    ∃ f, drawControl b ps x y = .ok f ∧ f.filled.length = X.length ∧ f.outlines.length = Y.length ∧ f.labels = none ∧
      (∀ (i : Nat) v, x[i]? = some v → f.filled[i]? = some (⟨(X.take (i + 1)).sum - X.headD 0, (X.take (i + 1)).sum, v⟩ : Bar K)) ∧
      ∀ (i : Nat) v, y[i]? = some v →
        f.outlines[i]? = some (⟨(X.take ps).sum + (Y.take (i + 1)).sum - Y.headD 0, (X.take ps).sum + (Y.take (i + 1)).sum, v⟩ : Bar K) := by
  obtain ⟨x₀, hx₀⟩ : ∃ x₀, X.head? = some x₀ := by
    cases X with
    | nil => simp at hp
    | cons a l => exact ⟨a, rfl⟩
  obtain ⟨y₀, hy₀⟩ : ∃ y₀, Y.head? = some y₀ := by
    cases Y with
    | nil => exact absurd rfl hY0
    | cons a l => exact ⟨a, rfl⟩
  have eX : X.headD 0 = x₀ := by rw [List.headD_eq_head?_getD, hx₀]; rfl
  have eY : Y.headD 0 = y₀ := by rw [List.headD_eq_head?_getD, hy₀]; rfl
  have h2 : (1 / 2 : K) + 1 / 2 = 1 := by norm_num
  obtain ⟨fl, f1, f2, f3⟩ := bars_get (x := (npCumsum 0 X).map fun s => s - 1 / 2 * x₀) (heights := x) x₀ (by simp [npCumsum_length, hx])
  obtain ⟨ol, o1, o2, o3⟩ := bars_get (x := (npCumsum 0 Y).map fun t => t - 1 / 2 * y₀ + (0 + (X.take (ps + 1)).sum) - X[ps]) (heights := y) y₀
    (by simp [npCumsum_length, hy])
  refine ⟨⟨fl, ol, none⟩, ?_, by simpa [npCumsum_length] using f2, by simpa [npCumsum_length] using o2, rfl, fun i v hi => ?_, fun i v hi => ?_⟩
  · unfold drawControl
    simp only [hX, hx₀, f1, hY, hy₀, npCumsum_get 0 X ps hp, List.getElem?_eq_getElem hp, o1, bind, Except.bind, pure, Except.pure]
  · have hlt : i < X.length := by rw [← hx]; exact (List.getElem?_eq_some_iff.mp hi).1
    rw [f3 i _ v (by rw [List.getElem?_map, npCumsum_get 0 X i hlt]; rfl) hi, eX]
    congr 2
    · linear_combination (-x₀) * h2
    · ring
  · have hlt : i < Y.length := by rw [← hy]; exact (List.getElem?_eq_some_iff.mp hi).1
    rw [o3 i _ v (by rw [List.getElem?_map, npCumsum_get 0 Y i hlt]; rfl) hi, eY]
    have e : (X.take (ps + 1)).sum = (X.take ps).sum + X[ps] := by
      rw [List.take_add_one, List.sum_append, List.getElem?_eq_getElem hp]
      simp
    rw [e]
    congr 2
    · linear_combination (-y₀) * h2
    · ring

/-! ## C146 -/

/-- **C146** (what is drawn, for every transfer function and all durations) One figure per control.  The filled rectangles have the
heights of the transferred pulse and end with their time steps, those of the raw pulse end with the steps of the raw pulse, shifted
by the padding `num_padding_elements` reports.  All rectangles are as wide as the first step of their pulse, and only the last figure
has labels. -/
theorem c146_edges [CharZero K] (t t' : TF K c) (hc : 0 < c) (y x : Pulse K c) (hcall : t.call y = .ok (t', x)) (X Y : List K)
    (hX : t.base.xTimes = some X) (hY : t.base.yTimes = some Y) (ps pe : Nat) (hpad : t.base.numPadding = .ok (ps, pe)) (hp : ps < X.length)
    (hY0 : Y ≠ []) (hx : x.length = X.length) (hy : y.length = Y.length) (lab : String × String) :
    ∃ figs, plotPulse t y lab = .ok figs ∧ figs.length = c ∧ ∀ k : Fin c, ∃ f, figs[(k : Nat)]? = some f ∧
      f.labels = (if k + 1 = c then some lab else none) ∧ f.filled.length = X.length ∧ f.outlines.length = Y.length ∧
      (∀ (i : Nat) r, x[i]? = some r → f.filled[i]? = some (⟨(X.take (i + 1)).sum - X.headD 0, (X.take (i + 1)).sum, r k⟩ : Bar K)) ∧
      ∀ (i : Nat) r, y[i]? = some r →
        f.outlines[i]? = some (⟨(X.take ps).sum + (Y.take (i + 1)).sum - Y.headD 0, (X.take ps).sum + (Y.take (i + 1)).sum, r k⟩ : Bar K) := by
  have hb := call_base t t' y x hcall
  have hdraw := fun k : Fin c => drawControl_get (b := t'.base) (hb ▸ hX) (hb ▸ hY) hp hY0 (x := x.map fun r => r k) (y := y.map fun r => r k)
    (by simpa using hx) (by simpa using hy)
  choose F h1 h2 h3 h4 h5 h6 using hdraw
  have hm := mapM_ok (fun k : Fin c => drawControl t'.base ps (x.map fun r => r k) (y.map fun r => r k)) F (List.finRange c) fun k _ => h1 k
  have hne : (List.finRange c).map F ≠ [] := by
    intro h0
    have := congrArg List.length h0
    simp at this
    omega
  obtain ⟨g1, g2⟩ := labelCurrent_get lab ((List.finRange c).map F) hne
  refine ⟨labelCurrent lab ((List.finRange c).map F), ?_, by simpa using g1, fun k => ?_⟩
  · unfold plotPulse
    simp only [hcall, hb, hpad, bind, Except.bind] at hm ⊢
    rw [hm]
    rfl
  · obtain ⟨f, e1, e2, e3, e4⟩ := g2 k (F k) (by simp)
    refine ⟨f, e1, ?_, by rw [e2, h2], by rw [e3, h3], fun i r hi => ?_, fun i r hi => ?_⟩
    · rw [e4, h4]
      simp
    · rw [e2]
      exact h5 k i (r k) (by rw [List.getElem?_map, hi]; rfl)
    · rw [e3]
      exact h6 k i (r k) (by rw [List.getElem?_map, hi]; rfl)

/-- The grid of equal time steps. -/
theorem equal_grid {b b' : Base K} {N : Nat} {δ : K} (hN : 0 < N) (h : b.setTimes (List.replicate N δ) = .ok b') :
    b'.xTimes = some (List.replicate b'.numX (δ / b.oversampling)) := by
  have hh : (List.replicate N δ).head? = some δ := by
    cases N with
    | zero => omega
    | succ N => rfl
  have hl : (List.replicate N δ).getLast? = some δ := by
    cases N with
    | zero => omega
    | succ N => simp [List.getLast?_replicate]
  have hr : ∀ (k N : Nat) (d : K), npRepeat k (List.replicate N d) = List.replicate (k * N) d := by
    intro k N d
    induction N with
    | zero => simp [npRepeat]
    | succ N ih =>
      rw [List.replicate_succ]
      show List.replicate k d ++ npRepeat k (List.replicate N d) = _
      rw [ih, Nat.mul_succ, Nat.add_comm, List.replicate_add]
  obtain ⟨bound, os, ny, yt, nx, xt⟩ := b
  unfold Base.setTimes at h
  rcases bound with _ | ⟨code, k⟩
  · simp only [Except.ok.injEq] at h
    subst h
    simp [hr]
  · cases code <;> simp only [hh, hl, Except.ok.injEq, reduceCtorEq] at h
    all_goals
      subst h
      simp only [hr, List.map_replicate, List.replicate_append_replicate, List.length_replicate]
      try congr 2
      try ring

theorem take_replicate_sum (m i : Nat) (d : K) (h : i ≤ m) : ((List.replicate m d).take i).sum = i * d := by
  rw [List.take_replicate, Nat.min_eq_left h, List.sum_replicate, nsmul_eq_mul]

/-- **C146** (equal time steps) The plot shows the transferred pulse as a step function on its time grid, and the raw pulse on its own grid,
starting after the padding. -/
theorem c146_equal_partial [CharZero K] (b b' : Base K) (N : Nat) (hN : 0 < N) (δ : K) (hos : 0 < b.oversampling)
    (hb : b.setTimes (List.replicate N δ) = .ok b') (t t' : TF K c) (ht : t.base = b') (hc : 0 < c) (y x : Pulse K c) (hy : y.length = N)
    (hcall : t.call y = .ok (t', x)) (hx : x.length = b'.numX) (ps pe : Nat) (hpad : specPadding b.bound b.oversampling = some (ps, pe))
    (lab : String × String) :
    ∃ figs, plotPulse t y lab = .ok figs ∧ figs.length = c ∧ ∀ k : Fin c, ∃ f, figs[(k : Nat)]? = some f ∧
      f.filled.length = x.length ∧ f.outlines.length = N ∧
      (∀ (i : Nat) r, x[i]? = some r → f.filled[i]? = some (⟨i * (δ / b.oversampling), (i + 1) * (δ / b.oversampling), r k⟩ : Bar K)) ∧
      ∀ (i : Nat) r, y[i]? = some r → f.outlines[i]? = some (⟨ps * (δ / b.oversampling) + i * δ, ps * (δ / b.oversampling) + (i + 1) * δ, r k⟩ : Bar K) := by
  obtain ⟨X, ps', pe', e1, e2, e3, e4, e5, e6, e7⟩ := c01_grid_length b b' _ hb
  rw [hpad] at e4
  obtain ⟨rfl, rfl⟩ := Prod.mk.inj (Option.some.inj e4)
  have eX := equal_grid hN hb
  rw [e1] at eX
  have eX' := Option.some.inj eX
  rw [List.length_replicate] at e7
  have hpos : 0 < b.oversampling * N := Nat.mul_pos hos hN
  have hlen : X.length = b'.numX := e6
  obtain ⟨figs, g1, g2, g3⟩ := c146_edges t t' hc y x hcall X (List.replicate N δ) (ht ▸ e1) (ht ▸ e2) ps pe (ht ▸ e5) (by omega)
    (by simp; omega) (by rw [hx, hlen]) (by simpa using hy) lab
  refine ⟨figs, g1, g2, fun k => ?_⟩
  obtain ⟨f, f1, -, f3, f4, f5, f6⟩ := g3 k
  have hX0 : X.headD 0 = δ / b.oversampling := by
    rw [eX']
    cases h : b'.numX with
    | zero => omega
    | succ m => rfl
  have hY0 : (List.replicate N δ).headD 0 = δ := by
    cases N with
    | zero => omega
    | succ m => rfl
  refine ⟨f, f1, by rw [f3, hx, hlen], by simpa using f4, fun i r hi => ?_, fun i r hi => ?_⟩
  · have hlt : i < b'.numX := by rw [← hx]; exact (List.getElem?_eq_some_iff.mp hi).1
    rw [f5 i r hi, hX0, eX', take_replicate_sum _ _ _ (by omega)]
    push_cast
    congr 2
    ring
  · have hlt : i < N := by rw [← hy]; exact (List.getElem?_eq_some_iff.mp hi).1
    rw [f6 i r hi, hY0, eX', take_replicate_sum _ _ _ (by omega), take_replicate_sum _ _ _ (by omega)]
    push_cast
    congr 2
    ring

/-- **C146** In particular for `OversamplingTF` with every boundary condition: no call fails. -/
theorem c146_oversampling_partial [CharZero K] (b : Base K) (N : Nat) (hN : 0 < N) (δ : K) (hos : 0 < b.oversampling) (t : TF K c)
    (hb : (TF.oversampling b : TF K c).setTimes (List.replicate N δ) = .ok t) (hc : 0 < c) (y : Pulse K c) (hy : y.length = N) (ps pe : Nat)
    (hpad : specPadding b.bound b.oversampling = some (ps, pe)) (lab : String × String) :
    ∃ figs, plotPulse t y lab = .ok figs ∧ figs.length = c ∧ ∀ k : Fin c, ∃ f, figs[(k : Nat)]? = some f ∧
      f.filled.length = ps + b.oversampling * N + pe ∧ f.outlines.length = N ∧
      (∀ (i : Nat) r (j : Nat), y[i]? = some r → j < b.oversampling → f.filled[ps + i * b.oversampling + j]? =
        some (⟨(ps + i * b.oversampling + j) * (δ / b.oversampling), (ps + i * b.oversampling + j + 1) * (δ / b.oversampling), r k⟩ : Bar K)) ∧
      ∀ (i : Nat) r, y[i]? = some r → f.outlines[i]? = some (⟨ps * (δ / b.oversampling) + i * δ, ps * (δ / b.oversampling) + (i + 1) * δ, r k⟩ : Bar K) := by
  obtain ⟨x, x1, x2, x3, -⟩ := c04_oversampling_rows b t _ ps pe y hb hpad (by simpa using hy)
  obtain ⟨b', hb', rfl⟩ : ∃ b', b.setTimes (List.replicate N δ) = .ok b' ∧ t = TF.oversampling b' := by
    simp only [TF.setTimes] at hb
    obtain ⟨b', hb', h⟩ := bind_ok hb
    simp only [pure, Except.pure, Except.ok.injEq] at h
    exact ⟨b', hb', h.symm⟩
  obtain ⟨t', ht'⟩ : ∃ t', (TF.oversampling b' : TF K c).call y = .ok (t', x) := by
    unfold TF.run at x1
    cases h : (TF.oversampling b' : TF K c).call y with
    | error e => rw [h] at x1; simp [Except.map] at x1
    | ok q =>
      rw [h] at x1
      simp only [Except.map, Except.ok.injEq] at x1
      exact ⟨q.1, by rw [← x1]⟩
  obtain ⟨X, ps', pe', e1, e2, e3, e4, e5, e6, e7⟩ := c01_grid_length b b' _ hb'
  rw [hpad] at e4
  obtain ⟨rfl, rfl⟩ := Prod.mk.inj (Option.some.inj e4)
  obtain ⟨figs, g1, g2, g3⟩ := c146_equal_partial b b' N hN δ hos hb' (TF.oversampling b') t' rfl hc y x hy ht' x2 ps pe hpad lab
  refine ⟨figs, g1, g2, fun k => ?_⟩
  obtain ⟨f, f1, f2, f3, f4, f5⟩ := g3 k
  refine ⟨f, f1, ?_, f3, fun i r j hi hj => ?_, f5⟩
  · rw [f2, x2]
    show b'.numX = _
    rw [e7, List.length_replicate]
  · have hlt := (List.getElem?_eq_some_iff.mp hi).1
    rw [f4 _ r (by rw [x3 i j hlt hj, hi])]
    push_cast
    rfl

/-! ### Violations -/

end

/-- **C146** (violation) With different durations the rectangles are not on the time grid: a pulse of two steps of length 1 and 2 is drawn
with a gap, and one of lengths 2 and 1 with an overlap. -/
theorem c146_violated_unequal (a b : ℚ) :
    (∃ t, (TF.identity (Base.init ℚ none 1) : TF ℚ 1).setTimes [1, 2] = .ok t ∧ ∃ f, plotPulse t [![a], ![b]] = .ok [f] ∧
      f.filled = [⟨0, 1, a⟩, ⟨2, 3, b⟩] ∧ f.outlines = f.filled) ∧
    ∃ t, (TF.identity (Base.init ℚ none 1) : TF ℚ 1).setTimes [2, 1] = .ok t ∧ ∃ f, plotPulse t [![a], ![b]] = .ok [f] ∧
      f.filled = [⟨0, 2, a⟩, ⟨1, 3, b⟩] := by
  refine ⟨⟨_, rfl, _, rfl, ?_, ?_⟩, _, rfl, _, rfl, ?_⟩
  · norm_num [npCumsum, npRepeat, Base.init]
  · norm_num [npCumsum, npRepeat, Base.init]
  · norm_num [npCumsum, npRepeat, Base.init]

/-- **C146** (violation) A concatenated transfer function reports no padding, `ConcatenateTF.__init__`, transfer_function.py:926-943, so
the outline of the raw pulse starts at 0: behind two steps of padding the amplitude `a` is played from 2 to 3 but drawn from 0 to 1. -/
theorem c146_violated_concat (a : ℚ) :
    ∃ t, (TF.concat (Base.init ℚ none 1) (TF.oversampling (Base.init ℚ (some ⟨.n, 2⟩) 1)) (TF.identity (Base.init ℚ none 1)) : TF ℚ 1).setTimes [1]
        = .ok t ∧ ∃ f, plotPulse t [![a]] = .ok [f] ∧
      f.filled = [⟨0, 1, 0⟩, ⟨1, 2, 0⟩, ⟨2, 3, a⟩, ⟨3, 4, 0⟩, ⟨4, 5, 0⟩] ∧ f.outlines = [⟨0, 1, a⟩] := by
  refine ⟨_, rfl, _, rfl, ?_, ?_⟩
  · norm_num [npCumsum, npRepeat, Base.init, List.replicate_succ]
  · norm_num [npCumsum, npRepeat, Base.init, copyTimes, TF.base]

/-- **C146** (violation) With more than one control only the last figure has labels, for every pulse. -/
theorem c146_violated_labels (a b : ℚ) (lab : String × String) :
    ∃ t, (TF.identity (Base.init ℚ none 1) : TF ℚ 2).setTimes [1] = .ok t ∧
      ∃ f g, plotPulse t [![a, b]] lab = .ok [f, g] ∧ f.labels = none ∧ g.labels = some lab :=
  ⟨_, rfl, _, _, rfl, rfl, rfl⟩

/-! ### Examples -/

/-- Two steps of length 3, oversampled twice, behind one step of padding. -/
example : ∃ t figs f, (TF.oversampling (Base.init ℚ (some ⟨.x, 1⟩) 2) : TF ℚ 1).setTimes (List.replicate 2 3) = .ok t ∧
    plotPulse t [![5], ![7]] ("t", "u") = .ok figs ∧ figs[0]? = some f ∧ f.outlines[1]? = some ⟨6, 9, 7⟩ ∧
      f.filled[2]? = some ⟨3, 9 / 2, 5⟩ := by
  obtain ⟨t, ht⟩ : ∃ t, (TF.oversampling (Base.init ℚ (some ⟨.x, 1⟩) 2) : TF ℚ 1).setTimes (List.replicate 2 3) = .ok t := ⟨_, rfl⟩
  obtain ⟨figs, h1, h2, h3⟩ := c146_oversampling_partial (Base.init ℚ (some ⟨.x, 1⟩) 2) 2 (by norm_num) 3 (by decide) t ht (by norm_num)
    [![5], ![7]] rfl 2 2 rfl ("t", "u")
  obtain ⟨f, f1, f2, f3, f4, f5⟩ := h3 0
  refine ⟨t, figs, f, ht, h1, f1, ?_, ?_⟩
  · rw [f5 1 ![7] rfl]
    norm_num [Base.init]
  · refine (f4 0 ![5] 0 rfl (by decide)).trans ?_
    norm_num [Base.init]

end Verif.Transfer
