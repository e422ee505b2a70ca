import Verif.Cost.Model
import Verif.Solver.LindbladThms

/-!
# The final propagator as function of one propagator
-/

namespace Verif.Cost
open Verif Verif.Operator Verif.Solver Matrix

section
variable {n m : Type} [Fintype n] [DecidableEq n]

theorem foldl_prod (l : List (Matrix n n ℂ)) (X : Matrix n m ℂ) :
    l.foldl (fun F P => P * F) X = l.foldl (fun F P => P * F) (1 : Matrix n n ℂ) * X := by
  induction l using List.reverseRecOn with
  | nil => simp
  | append_singleton l P ih => simp only [List.foldl_append, List.foldl_cons, List.foldl_nil, ih, Matrix.mul_assoc]

theorem isReversed_unique {ps r : List (Matrix n n ℂ)} (h : IsReversed ps r) : ∀ i, i ≤ ps.length →
    r[i]? = some ((ps.drop (ps.length - i)).foldl (fun F P => P * F) 1) := by
  obtain ⟨h1, h2, h3⟩ := h
  intro i
  induction i with
  | zero => intro _; simpa using h2
  | succ i ih =>
    intro hi
    obtain ⟨R, e1, e2⟩ := h3 i (by omega)
    rw [ih (by omega)] at e1
    cases e1
    rw [e2]
    have hlt : ps.length - (i + 1) < ps.length := by omega
    rw [List.drop_eq_getElem_cons hlt, List.foldl_cons, Matrix.mul_one, foldl_prod _ (ps[ps.length - (i + 1)])]
    have e3 : ps.length - (i + 1) + 1 = ps.length - i := by omega
    have e4 : ps.length - 1 - i = ps.length - (i + 1) := by omega
    simp only [e3, e4]

/-- Everything but propagator `t` is a fixed factor of the final propagator. -/
theorem final_set {init : Matrix n m ℂ} {ps : List (Matrix n n ℂ)} {f : List (Matrix n m ℂ)} {r : List (Matrix n n ℂ)}
    (hf : IsForward init ps f) (hr : IsReversed ps r) (t : Nat) (ht : t < ps.length) :
    ∃ R F, r.reverse[t + 1]? = some R ∧ f[t]? = some F ∧
      ∀ Q f', IsForward init (ps.set t Q) f' → f'.getLast? = some (R * Q * F) := by
  refine ⟨(ps.drop (t + 1)).foldl (fun F P => P * F) 1, _, ?_, isForward_unique hf t (by omega), fun Q f' hf' => ?_⟩
  · rw [List.getElem?_reverse (by rw [hr.1]; omega), hr.1,
      show ps.length + 1 - 1 - (t + 1) = ps.length - (t + 1) by omega]
    rw [isReversed_unique hr (ps.length - (t + 1)) (by omega), show ps.length - (ps.length - (t + 1)) = t + 1 by omega]
  · rw [List.getLast?_eq_getElem?, hf'.1, Nat.add_sub_cancel, isForward_unique hf' _ le_rfl, List.take_length]
    have : ps.set t Q = ps.take t ++ Q :: ps.drop (t + 1) := by
      rw [List.set_eq_take_append_cons_drop, if_pos ht]
    rw [this, List.foldl_append, List.foldl_cons, foldl_prod (ps.drop (t + 1)), Matrix.mul_assoc]

theorem idx_ok {α : Type} {l : List α} {i : Nat} {a : α} (h : l[i]? = some a) : idx l i = .ok a := by
  unfold idx; rw [h]

theorem last_ok {α : Type} {l : List α} {a : α} (h : l.getLast? = some a) : last l = .ok a := by
  unfold last; rw [h]

theorem allOk_of_ok {α β : Type} (l : List β) (f : β → Except PyErr α) (h : ∀ b ∈ l, ∃ a, f b = .ok a) :
    ∃ r, allOk (l.map f) = .ok r ∧ r.length = l.length ∧ ∀ (i : Nat) (b : β), l[i]? = some b → ∃ a, f b = .ok a ∧ r[i]? = some a := by
  induction l with
  | nil => exact ⟨[], rfl, rfl, by simp⟩
  | cons b l ih =>
    obtain ⟨r, h1, h2, h3⟩ := ih fun b hb => h b (by simp [hb])
    obtain ⟨a, ha⟩ := h b (by simp)
    refine ⟨a :: r, ?_, by simp [h2], fun i b' hi => ?_⟩
    · rw [List.map_cons, allOk, ha, h1]; rfl
    · cases i with
      | zero => simp at hi; subst hi; exact ⟨a, ha, by simp⟩
      | succ i => simpa using h3 i b' (by simpa using hi)

/-- Entry `[t][c]` of a table. -/
def entry (g : List (List ℝ)) (t c : Nat) : Option ℝ := g[t]?.bind fun row => row[c]?

/-- A table with `nt` rows of length `nc`. -/
def Rect {α : Type} (g : List (List α)) (nt nc : Nat) : Prop := g.length = nt ∧ ∀ row ∈ g, row.length = nc

theorem table_ok (nt nc : Nat) (f : Nat → Nat → Except PyErr ℝ) (h : ∀ t < nt, ∀ c < nc, ∃ x, f t c = .ok x) :
    ∃ g, table nt nc f = .ok g ∧ Rect g nt nc ∧ ∀ t < nt, ∀ c < nc, ∃ x, f t c = .ok x ∧ entry g t c = some x := by
  obtain ⟨g, h1, h2, h3⟩ := allOk_of_ok (List.range nt) (fun t => allOk ((List.range nc).map fun c => f t c)) (by
    intro t ht
    obtain ⟨r, hr, -⟩ := allOk_of_ok (List.range nc) (fun c => f t c) fun c hc =>
      h t (List.mem_range.mp ht) c (List.mem_range.mp hc)
    exact ⟨r, hr⟩)
  have h4 : ∀ t < nt, ∃ r, g[t]? = some r ∧ r.length = nc ∧ ∀ c < nc, ∃ x, f t c = .ok x ∧ r[c]? = some x := by
    intro t ht
    obtain ⟨r, e1, e2⟩ := h3 t t (List.getElem?_range ht)
    obtain ⟨r', e3, e4, e5⟩ := allOk_of_ok (List.range nc) (fun c => f t c) fun c hc => h t ht c (List.mem_range.mp hc)
    rw [e1] at e3
    cases e3
    exact ⟨r, e2, by simpa using e4, fun c hc => e5 c c (List.getElem?_range hc)⟩
  have hlen : g.length = nt := by simpa using h2
  refine ⟨g, h1, ⟨hlen, fun row hrow => ?_⟩, fun t ht c hc => ?_⟩
  · obtain ⟨t, ht, rfl⟩ := List.getElem_of_mem hrow
    obtain ⟨r, e1, e2, -⟩ := h4 t (by omega)
    rw [List.getElem?_eq_getElem ht] at e1
    cases e1
    exact e2
  · obtain ⟨r, e1, -, e3⟩ := h4 t ht
    obtain ⟨x, e4, e5⟩ := e3 c hc
    exact ⟨x, e4, by simp [entry, e1, e5]⟩

/-- The gradient table for propagator lists of consistent shapes. -/
theorem gradTable_ok {init : Matrix n m ℂ} {ps : List (Matrix n n ℂ)} {fwd : List (Matrix n m ℂ)}
    {rev : List (Matrix n n ℂ)} (hf : IsForward init ps fwd) (hr : IsReversed ps rev) {nc : Nat} (hnc : 0 < nc)
    {dP : List (List (Matrix n n ℂ))} (hd : Rect dP nc ps.length) (f : Matrix n m ℂ → ℝ) :
    ∃ g, gradTable fwd dP rev f = .ok g ∧ Rect g ps.length nc ∧
      ∀ t c R D F, rev.reverse[t + 1]? = some R → (dP[c]?.bind fun row => row[t]?) = some D → fwd[t]? = some F →
        entry g t c = some (f (R * D * F)) := by
  obtain ⟨hd1, hd2⟩ := hd
  have h0 : 0 < dP.length := by omega
  have hrow0 : dP[0]? = some dP[0] := List.getElem?_eq_getElem h0
  have hlen0 : dP[0].length = ps.length := hd2 _ (List.getElem_mem h0)
  obtain ⟨g, h1, h2, h3⟩ := table_ok ps.length nc (fun t c => do
    let R ← idx rev.reverse (t + 1)
    let row ← idx dP c
    let D ← idx row t
    let F ← idx fwd t
    pure (f (R * D * F))) (by
      intro t ht c hc
      obtain ⟨R, F, e1, e2, -⟩ := final_set hf hr t ht
      have hc' : c < dP.length := by omega
      have ht' : t < dP[c].length := by rw [hd2 _ (List.getElem_mem hc')]; exact ht
      rw [idx_ok e1, idx_ok (List.getElem?_eq_getElem hc'), idx_ok e2]
      simp only [bind, Except.bind]
      rw [idx_ok (List.getElem?_eq_getElem ht')]
      exact ⟨_, rfl⟩)
  refine ⟨g, ?_, h2, fun t c R D F e1 e2 e3 => ?_⟩
  · unfold gradTable
    rw [idx_ok hrow0]
    simp only [bind, Except.bind]
    rw [hlen0, hd1]
    exact h1
  · obtain ⟨row, e4, e5⟩ := Option.bind_eq_some_iff.mp e2
    have hc : c < nc := by rw [← hd1]; exact (List.getElem?_eq_some_iff.mp e4).1
    have ht : t < ps.length := by
      rw [← hd2 row (List.mem_of_getElem? e4)]; exact (List.getElem?_eq_some_iff.mp e5).1
    obtain ⟨x, e6, e7⟩ := h3 t ht c hc
    rw [idx_ok e1, idx_ok e4, idx_ok e3] at e6
    simp only [bind, Except.bind] at e6
    rw [idx_ok e5] at e6
    cases e6
    exact e7

theorem entry_neg {g : List (List ℝ)} {t c : Nat} {x : ℝ} (h : entry g t c = some x) :
    entry (negTable g) t c = some (-x) := by
  unfold entry negTable at *
  obtain ⟨row, e1, e2⟩ := Option.bind_eq_some_iff.mp h
  simp [e1, e2]

theorem rect_neg {g : List (List ℝ)} {nt nc : Nat} (h : Rect g nt nc) : Rect (negTable g) nt nc := by
  obtain ⟨h1, h2⟩ := h
  refine ⟨by simp [negTable, h1], fun row hrow => ?_⟩
  simp only [negTable, List.mem_map] at hrow
  obtain ⟨r, hr, rfl⟩ := hrow
  simp [h2 r hr]

end
end Verif.Cost
