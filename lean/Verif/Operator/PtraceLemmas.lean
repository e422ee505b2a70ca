import Verif.Operator.Ptrace
import Mathlib.Tactic.Ring

/-! # Lemmas about multi-indices and the closed form of `ptrace` -/

namespace Verif.Operator
open Verif

theorem unravel_length (s : List Nat) (p : Nat) : (unravel s p).length = s.length := by
  induction s generalizing p with
  | nil => rfl
  | cons d s ih => simp [unravel, ih]

/-- Every component of a multi-index is below the length of its axis. -/
theorem unravel_lt (s : List Nat) (p : Nat) (hp : p < s.prod) (k : Nat) (hk : k < s.length) :
    (unravel s p).getD k 0 < s.getD k 0 := by
  induction s generalizing p k with
  | nil => simp at hk
  | cons d s ih =>
    have hpos : 0 < s.prod := by
      rcases Nat.eq_zero_or_pos s.prod with h | h
      · simp [h] at hp
      · exact h
    rw [List.prod_cons] at hp
    cases k with
    | zero =>
      simp only [unravel, List.getD_cons_zero]
      rw [Nat.div_lt_iff_lt_mul hpos]; exact hp
    | succ k =>
      simp only [unravel, List.getD_cons_succ]
      exact ih _ (Nat.mod_lt _ hpos) k (by simpa using hk)

theorem ravel_unravel (s : List Nat) (p : Nat) (hp : p < s.prod) : ravel s (unravel s p) = p := by
  induction s generalizing p with
  | nil => simp at hp; simp [unravel, ravel, hp]
  | cons d s ih =>
    have hpos : 0 < s.prod := by
      rcases Nat.eq_zero_or_pos s.prod with h | h
      · simp [h] at hp
      · exact h
    simp only [unravel, ravel]
    rw [ih _ (Nat.mod_lt _ hpos), Nat.mul_comm]
    exact Nat.div_add_mod p _

/-- A multi-index within the shape. -/
def InShape (s is : List Nat) : Prop := is.length = s.length ∧ ∀ k < s.length, is.getD k 0 < s.getD k 0

theorem inShape_unravel (s : List Nat) (p : Nat) (hp : p < s.prod) : InShape s (unravel s p) :=
  ⟨unravel_length s p, unravel_lt s p hp⟩

theorem InShape.tail {d i : Nat} {s is : List Nat} (h : InShape (d :: s) (i :: is)) :
    i < d ∧ InShape s is := by
  refine ⟨by simpa using h.2 0 (by simp), by simpa using h.1, fun k hk => ?_⟩
  simpa using h.2 (k + 1) (by simpa using hk)

theorem ravel_lt (s is : List Nat) (h : InShape s is) : ravel s is < s.prod := by
  induction s generalizing is with
  | nil =>
    have := h.1
    simp only [List.length_nil, List.length_eq_zero_iff] at this
    simp [this, ravel]
  | cons d s ih =>
    match is with
    | [] => simp [InShape] at h
    | i :: is =>
      obtain ⟨h1, h2⟩ := h.tail
      simp only [ravel, List.prod_cons]
      exact Arr.index_lt h1 (ih is h2)

theorem unravel_ravel (s is : List Nat) (h : InShape s is) : unravel s (ravel s is) = is := by
  induction s generalizing is with
  | nil =>
    have := h.1
    simp only [List.length_nil, List.length_eq_zero_iff] at this
    simp [this, unravel]
  | cons d s ih =>
    match is with
    | [] => simp [InShape] at h
    | i :: is =>
      obtain ⟨h1, h2⟩ := h.tail
      have := ravel_lt s is h2
      simp only [ravel, unravel]
      rw [Arr.index_div this, Arr.index_mod this, ih is h2]

theorem unravel_append (s t : List Nat) (p q : Nat) (hp : p < s.prod) (hq : q < t.prod) :
    unravel (s ++ t) (p * t.prod + q) = unravel s p ++ unravel t q := by
  induction s generalizing p with
  | nil => simp at hp; simp [unravel, hp]
  | cons d s ih =>
    have hpos : 0 < s.prod := by
      rcases Nat.eq_zero_or_pos s.prod with h | h
      · simp [h] at hp
      · exact h
    simp only [List.cons_append, unravel, List.prod_append]
    have hp' : p = p / s.prod * s.prod + p % s.prod := by
      rw [Nat.mul_comm]; exact (Nat.div_add_mod p _).symm
    have hm := Nat.mod_lt p hpos
    have key : p * t.prod + q = p / s.prod * (s.prod * t.prod) + (p % s.prod * t.prod + q) := by
      conv_lhs => rw [hp']
      ring
    have hlt : p % s.prod * t.prod + q < s.prod * t.prod := Arr.index_lt hm hq
    rw [key, Arr.index_div hlt, Arr.index_mod hlt, ih _ hm]

theorem ravel_append (s t is js : List Nat) (h : is.length = s.length) :
    ravel (s ++ t) (is ++ js) = ravel s is * t.prod + ravel t js := by
  induction s generalizing is with
  | nil =>
    simp only [List.length_nil, List.length_eq_zero_iff] at h
    simp [h, ravel]
  | cons d s ih =>
    match is with
    | [] => simp at h
    | i :: is =>
      simp only [List.cons_append, ravel, List.prod_append]
      rw [ih is (by simpa using h)]
      ring

/-- Multi-index of the whole system from multi-indices of the removed and the kept subsystems. -/
def mergeIdx (n : Nat) (rm keep I J : List Nat) : List Nat :=
  (List.range n).map fun a => if a ∈ rm then I.getD (rm.idxOf a) 0 else J.getD (keep.idxOf a) 0

theorem mergeIdx_length (n : Nat) (rm keep I J : List Nat) : (mergeIdx n rm keep I J).length = n := by
  simp [mergeIdx]

theorem mergeIdx_getD (n : Nat) (rm keep I J : List Nat) (a : Nat) (ha : a < n) :
    (mergeIdx n rm keep I J).getD a 0
      = if a ∈ rm then I.getD (rm.idxOf a) 0 else J.getD (keep.idxOf a) 0 := by
  rw [List.getD_eq_getElem _ _ (by simpa [mergeIdx] using ha)]
  simp [mergeIdx]

/-- `rm` and `keep` list every subsystem exactly once. -/
structure Split (n : Nat) (rm keep : List Nat) : Prop where
  perm : (rm ++ keep).Perm (List.range n)

namespace Split
variable {n : Nat} {rm keep : List Nat}

theorem nodup (h : Split n rm keep) : (rm ++ keep).Nodup := h.perm.nodup_iff.mpr List.nodup_range
theorem mem (h : Split n rm keep) (a : Nat) : a ∈ rm ∨ a ∈ keep ↔ a < n := by
  rw [← List.mem_append, h.perm.mem_iff, List.mem_range]
theorem not_both (h : Split n rm keep) {a : Nat} (h1 : a ∈ rm) (h2 : a ∈ keep) : False :=
  (List.nodup_append.mp h.nodup).2.2 a h1 a h2 rfl
theorem rm_nodup (h : Split n rm keep) : rm.Nodup := (List.nodup_append.mp h.nodup).1
theorem keep_nodup (h : Split n rm keep) : keep.Nodup := (List.nodup_append.mp h.nodup).2.1

theorem prod (h : Split n rm keep) (dims : List Nat) (hn : dims.length = n) :
    (rm.map fun k => dims.getD k 0).prod * (keep.map fun k => dims.getD k 0).prod = dims.prod := by
  rw [← List.prod_append, ← List.map_append, (h.perm.map fun k => dims.getD k 0).prod_eq]
  congr 1
  apply List.ext_getElem (by simp [hn])
  intro k h1 h2
  rw [List.getElem_map, List.getElem_range, List.getD_eq_getElem _ _ h2]

end Split

theorem getD_map (l : List Nat) (f : Nat → Nat) (k : Nat) (hk : k < l.length) :
    (l.map f).getD k 0 = f l[k] := by
  rw [List.getD_eq_getElem _ _ (by simpa using hk)]
  simp

theorem inShape_mergeIdx {n : Nat} {rm keep dims : List Nat} (h : Split n rm keep) (hn : dims.length = n)
    {I J : List Nat} (hI : InShape (rm.map fun k => dims.getD k 0) I)
    (hJ : InShape (keep.map fun k => dims.getD k 0) J) : InShape dims (mergeIdx n rm keep I J) := by
  refine ⟨by rw [mergeIdx_length, hn], fun a ha => ?_⟩
  rw [hn] at ha
  rw [mergeIdx_getD _ _ _ _ _ _ ha]
  by_cases hm : a ∈ rm
  · rw [if_pos hm]
    have hlt := List.idxOf_lt_length_of_mem hm
    have := hI.2 (rm.idxOf a) (by simpa using hlt)
    rwa [getD_map _ _ _ hlt, List.getElem_idxOf] at this
  · rw [if_neg hm]
    have hk : a ∈ keep := ((h.mem a).mpr ha).resolve_left hm
    have hlt := List.idxOf_lt_length_of_mem hk
    have := hJ.2 (keep.idxOf a) (by simpa using hlt)
    rwa [getD_map _ _ _ hlt, List.getElem_idxOf] at this

/-- Component of a concatenated list of multi-indices. -/
theorem getD_append_left' (l m : List Nat) (k : Nat) (h : k < l.length) : (l ++ m).getD k 0 = l.getD k 0 :=
  List.getD_append _ _ _ _ h
theorem getD_append_right' (l m : List Nat) (k : Nat) : (l ++ m).getD (l.length + k) 0 = m.getD k 0 := by
  rw [List.getD_append_right _ _ _ _ (by omega), Nat.add_sub_cancel_left]

theorem idxOf_append_right' {l m : List Nat} {a : Nat} (h : a ∉ l) :
    (l ++ m).idxOf a = l.length + m.idxOf a := by
  rw [List.idxOf_append_of_notMem h]

theorem idxOf_map_add (n : Nat) (l : List Nat) (a : Nat) : (l.map (n + ·)).idxOf (n + a) = l.idxOf a := by
  induction l with
  | nil => rfl
  | cons b l ih =>
    by_cases h : b = a
    · subst h; simp
    · have : n + b ≠ n + a := by omega
      rw [List.map_cons, List.idxOf_cons_ne _ this, List.idxOf_cons_ne _ h, ih]

theorem axes_perm {n : Nat} {rm keep : List Nat} (h : Split n rm keep) :
    (rm ++ rm.map (n + ·) ++ keep ++ keep.map (n + ·)).Perm (List.range (n + n)) := by
  have h1 : (rm ++ rm.map (n + ·) ++ keep ++ keep.map (n + ·)).Perm
      ((rm ++ keep) ++ (rm ++ keep).map (n + ·)) := by
    rw [List.map_append]
    simp only [List.append_assoc]
    refine List.Perm.append_left _ ?_
    rw [← List.append_assoc, ← List.append_assoc]
    exact List.Perm.append_right _ List.perm_append_comm
  refine h1.trans ?_
  rw [List.range_add]
  exact h.perm.append (h.perm.map _)

/-- The old multi-index the transposed array reads from. -/
theorem old_index {n : Nat} {rm keep : List Nat} (h : Split n rm keep) (I I' J K' : List Nat)
    (hI : I.length = rm.length) (hI' : I'.length = rm.length) (hJ : J.length = keep.length) :
    ((List.range (n + n)).map fun k => (I ++ I' ++ J ++ K').getD
      ((rm ++ rm.map (n + ·) ++ keep ++ keep.map (n + ·)).idxOf k) 0)
      = mergeIdx n rm keep I J ++ mergeIdx n rm keep I' K' := by
  rw [List.range_add, List.map_append, List.map_map]
  congr 1
  · refine List.map_congr_left fun a ha => ?_
    have ha' := List.mem_range.mp ha
    have hnot : ∀ l : List Nat, a ∉ l.map (n + ·) := by
      intro l hl
      obtain ⟨b, -, hb⟩ := List.mem_map.mp hl
      omega
    by_cases hm : a ∈ rm
    · rw [if_pos hm]
      have hlt := List.idxOf_lt_length_of_mem hm
      rw [List.append_assoc rm, List.append_assoc rm, List.idxOf_append_of_mem hm, List.append_assoc I,
        List.append_assoc I, getD_append_left' _ _ _ (by omega)]
    · rw [if_neg hm]
      have hk : a ∈ keep := ((h.mem a).mpr ha').resolve_left hm
      have hlt := List.idxOf_lt_length_of_mem hk
      have e1 : (rm ++ rm.map (n + ·) ++ keep ++ keep.map (n + ·)).idxOf a
          = (I ++ I').length + keep.idxOf a := by
        rw [List.append_assoc, idxOf_append_right' (by
          rw [List.mem_append]; rintro (h' | h'); exacts [hm h', hnot _ h']),
          List.idxOf_append_of_mem hk]
        simp [hI, hI']
      rw [e1, List.append_assoc, getD_append_right', getD_append_left' _ _ _ (by omega)]
  · refine List.map_congr_left fun a ha => ?_
    have ha' := List.mem_range.mp ha
    have hlt' : ∀ b, b ∈ rm ∨ b ∈ keep → b ≠ n + a := by
      intro b hb
      have := (h.mem b).mp hb
      omega
    have hn1 : n + a ∉ rm := fun h' => hlt' _ (Or.inl h') rfl
    have hn2 : n + a ∉ keep := fun h' => hlt' _ (Or.inr h') rfl
    simp only [Function.comp]
    by_cases hm : a ∈ rm
    · rw [if_pos hm]
      have hlt := List.idxOf_lt_length_of_mem hm
      have hmm : n + a ∈ rm.map (n + ·) := List.mem_map.mpr ⟨a, hm, rfl⟩
      have e1 : (rm ++ rm.map (n + ·) ++ keep ++ keep.map (n + ·)).idxOf (n + a)
          = I.length + rm.idxOf a := by
        rw [List.append_assoc, List.append_assoc, idxOf_append_right' hn1, List.idxOf_append_of_mem hmm,
          idxOf_map_add, hI]
      rw [e1, List.append_assoc, List.append_assoc, getD_append_right', getD_append_left' _ _ _ (by omega)]
    · rw [if_neg hm]
      have hmm : n + a ∉ rm.map (n + ·) := by
        intro h'
        obtain ⟨b, hb, hb'⟩ := List.mem_map.mp h'
        have : b = a := by omega
        exact hm (this ▸ hb)
      have e1 : (rm ++ rm.map (n + ·) ++ keep ++ keep.map (n + ·)).idxOf (n + a)
          = (I ++ I' ++ J).length + keep.idxOf a := by
        rw [idxOf_append_right' (by
          rw [List.mem_append, List.mem_append]; rintro ((h' | h') | h'); exacts [hn1 h', hmm h', hn2 h']),
          idxOf_map_add]
        simp [hI, hI', hJ]
      rw [e1, getD_append_right']

/-- Flat position in the whole system for flat positions of the removed and the kept part. -/
def joinIdx (dims rm keep : List Nat) (i j : Nat) : Nat :=
  ravel dims (mergeIdx dims.length rm keep (unravel (rm.map fun k => dims.getD k 0) i)
    (unravel (keep.map fun k => dims.getD k 0) j))

/-- Inverse of `joinIdx`: restriction of a multi-index to a list of subsystems. -/
def restrictIdx (dims ks : List Nat) (p : Nat) : Nat :=
  ravel (ks.map fun k => dims.getD k 0) (ks.map fun k => (unravel dims p).getD k 0)

section
variable {rm keep dims : List Nat} (h : Split dims.length rm keep)
include h

theorem joinIdx_lt {i j : Nat} (hi : i < (rm.map fun k => dims.getD k 0).prod)
    (hj : j < (keep.map fun k => dims.getD k 0).prod) : joinIdx dims rm keep i j < dims.prod :=
  ravel_lt _ _ (inShape_mergeIdx h rfl (inShape_unravel _ _ hi) (inShape_unravel _ _ hj))

theorem restrictIdx_lt (ks : List Nat) (hks : ∀ k ∈ ks, k < dims.length) {p : Nat} (hp : p < dims.prod) :
    restrictIdx dims ks p < (ks.map fun k => dims.getD k 0).prod := by
  refine ravel_lt _ _ ⟨by simp, fun k hk => ?_⟩
  have hk' : k < ks.length := by simpa using hk
  rw [getD_map _ _ _ hk', getD_map _ _ _ hk']
  exact unravel_lt _ _ hp _ (hks _ (List.getElem_mem _))

theorem restrict_rm {i j : Nat} (hi : i < (rm.map fun k => dims.getD k 0).prod)
    (hj : j < (keep.map fun k => dims.getD k 0).prod) :
    restrictIdx dims rm (joinIdx dims rm keep i j) = i := by
  have hs := inShape_mergeIdx h rfl (inShape_unravel _ _ hi) (inShape_unravel _ _ hj)
  rw [restrictIdx, joinIdx, unravel_ravel _ _ hs]
  have : (rm.map fun k => (mergeIdx dims.length rm keep (unravel (rm.map fun k => dims.getD k 0) i)
      (unravel (keep.map fun k => dims.getD k 0) j)).getD k 0) = unravel (rm.map fun k => dims.getD k 0) i := by
    apply List.ext_getElem (by simp [unravel_length])
    intro k h1 h2
    have hk : k < rm.length := by simpa using h1
    have hmem := List.getElem_mem hk
    rw [List.getElem_map, mergeIdx_getD _ _ _ _ _ _ ((h.mem _).mp (Or.inl hmem)), if_pos hmem,
      List.Nodup.idxOf_getElem h.rm_nodup, List.getD_eq_getElem _ _ h2]
  rw [this, ravel_unravel _ _ hi]

theorem restrict_keep {i j : Nat} (hi : i < (rm.map fun k => dims.getD k 0).prod)
    (hj : j < (keep.map fun k => dims.getD k 0).prod) :
    restrictIdx dims keep (joinIdx dims rm keep i j) = j := by
  have hs := inShape_mergeIdx h rfl (inShape_unravel _ _ hi) (inShape_unravel _ _ hj)
  rw [restrictIdx, joinIdx, unravel_ravel _ _ hs]
  have : (keep.map fun k => (mergeIdx dims.length rm keep (unravel (rm.map fun k => dims.getD k 0) i)
      (unravel (keep.map fun k => dims.getD k 0) j)).getD k 0)
      = unravel (keep.map fun k => dims.getD k 0) j := by
    apply List.ext_getElem (by simp [unravel_length])
    intro k h1 h2
    have hk : k < keep.length := by simpa using h1
    have hmem := List.getElem_mem hk
    rw [List.getElem_map, mergeIdx_getD _ _ _ _ _ _ ((h.mem _).mp (Or.inr hmem)),
      if_neg (fun hm => h.not_both hm hmem),
      List.Nodup.idxOf_getElem h.keep_nodup, List.getD_eq_getElem _ _ h2]
  rw [this, ravel_unravel _ _ hj]

theorem join_restrict {p : Nat} (hp : p < dims.prod) :
    joinIdx dims rm keep (restrictIdx dims rm p) (restrictIdx dims keep p) = p := by
  have hr : ∀ ks : List Nat, (∀ k ∈ ks, k < dims.length) →
      unravel (ks.map fun k => dims.getD k 0) (restrictIdx dims ks p) = ks.map fun k => (unravel dims p).getD k 0 := by
    intro ks hks
    rw [restrictIdx, unravel_ravel]
    refine ⟨by simp, fun k hk => ?_⟩
    have hk' : k < ks.length := by simpa using hk
    rw [getD_map _ _ _ hk', getD_map _ _ _ hk']
    exact unravel_lt _ _ hp _ (hks _ (List.getElem_mem _))
  rw [joinIdx, hr rm fun k hk => (h.mem k).mp (Or.inl hk), hr keep fun k hk => (h.mem k).mp (Or.inr hk)]
  have : mergeIdx dims.length rm keep (rm.map fun k => (unravel dims p).getD k 0)
      (keep.map fun k => (unravel dims p).getD k 0) = unravel dims p := by
    apply List.ext_getElem (by simp [mergeIdx, unravel_length])
    intro a h1 h2
    have ha : a < dims.length := by simpa [mergeIdx] using h1
    rw [← List.getD_eq_getElem _ 0 h1, ← List.getD_eq_getElem _ 0 h2, mergeIdx_getD _ _ _ _ _ _ ha]
    by_cases hm : a ∈ rm
    · have hlt := List.idxOf_lt_length_of_mem hm
      rw [if_pos hm, getD_map _ _ _ hlt, List.getElem_idxOf]
    · have hk : a ∈ keep := ((h.mem a).mpr ha).resolve_left hm
      have hlt := List.idxOf_lt_length_of_mem hk
      rw [if_neg hm, getD_map _ _ _ hlt, List.getElem_idxOf]
  rw [this, ravel_unravel _ _ hp]

/-- Summing over both parts is summing over the whole system. -/
theorem sum_join {M : Type} [AddCommMonoid M] (f : Nat → M) :
    ∑ j ∈ Finset.range (keep.map fun k => dims.getD k 0).prod,
      ∑ i ∈ Finset.range (rm.map fun k => dims.getD k 0).prod, f (joinIdx dims rm keep i j)
      = ∑ p ∈ Finset.range dims.prod, f p := by
  rw [← Finset.sum_product']
  refine Finset.sum_bij' (fun q _ => joinIdx dims rm keep q.2 q.1)
    (fun p _ => (restrictIdx dims keep p, restrictIdx dims rm p)) ?_ ?_ ?_ ?_ ?_
  · rintro ⟨j, i⟩ hq
    rw [Finset.mem_product, Finset.mem_range, Finset.mem_range] at hq
    exact Finset.mem_range.mpr (joinIdx_lt h hq.2 hq.1)
  · intro p hp
    have hp' := Finset.mem_range.mp hp
    rw [Finset.mem_product, Finset.mem_range, Finset.mem_range]
    exact ⟨restrictIdx_lt h keep (fun k hk => (h.mem k).mp (Or.inr hk)) hp',
      restrictIdx_lt h rm (fun k hk => (h.mem k).mp (Or.inl hk)) hp'⟩
  · rintro ⟨j, i⟩ hq
    rw [Finset.mem_product, Finset.mem_range, Finset.mem_range] at hq
    simp only [restrict_rm h hq.2 hq.1, restrict_keep h hq.2 hq.1]
  · intro p hp
    exact join_restrict h (Finset.mem_range.mp hp)
  · rintro ⟨j, i⟩ _
    rfl

end

theorem sortedRemove_perm (remove : List Nat) : (sortedRemove remove).Perm remove :=
  List.mergeSort_perm _ _

theorem split_of (order : List Nat → List Nat) (ho : ∀ l, (order l).Perm l) (n : Nat) (remove : List Nat)
    (hnd : remove.Nodup) (hlt : ∀ k ∈ remove, k < n) : Split n (sortedRemove remove) (keepOf order n remove) := by
  constructor
  have hp := sortedRemove_perm remove
  refine (List.Perm.append_left _ (ho _)).trans ?_
  rw [List.perm_ext_iff_of_nodup]
  · intro a
    simp only [List.mem_append, List.mem_filter, List.mem_range, Bool.not_eq_true', List.contains_eq_mem,
      decide_eq_false_iff_not]
    constructor
    · rintro (h | h)
      · exact hlt a (hp.mem_iff.mp h)
      · exact h.1
    · intro h
      by_cases hm : a ∈ sortedRemove remove
      · exact Or.inl hm
      · exact Or.inr ⟨h, hm⟩
  · rw [List.nodup_append]
    refine ⟨hp.nodup_iff.mpr hnd, List.Nodup.filter _ List.nodup_range, ?_⟩
    intro a ha b hb
    simp only [List.mem_filter, List.contains_eq_mem, Bool.not_eq_true', decide_eq_false_iff_not] at hb
    rintro rfl
    exact hb.2 ha
  · exact List.nodup_range

/-- Closed form of the reshape / transpose / trace chain: every entry is the sum over the positions of the
removed subsystems. -/
theorem traceOut_closed {K : Type} [CommRing K] (a : Arr K) (dims rm keep : List Nat) (hw : a.WF)
    (hr : a.rows = dims.prod) (hc : a.cols = dims.prod) (hs : Split dims.length rm keep) (hne : rm ≠ [])
    (hne' : keep ≠ []) :
    traceOut a dims rm keep = .ok (Arr.ofFn
      (keep.map fun k => dims.getD k 0).prod (keep.map fun k => dims.getD k 0).prod fun j k =>
        ∑ i ∈ Finset.range (rm.map fun k => dims.getD k 0).prod,
          a.entry (joinIdx dims rm keep i j) (joinIdx dims rm keep i k)) := by
  have hbl : a.buf.length = (dims ++ dims).prod := by rw [hw, hr, hc, List.prod_append]
  have hshape : (rm ++ rm.map (dims.length + ·) ++ keep ++ keep.map (dims.length + ·)).map
      (fun k => (dims ++ dims).getD k 0) = rm.map (fun k => dims.getD k 0) ++ rm.map (fun k => dims.getD k 0)
        ++ keep.map (fun k => dims.getD k 0) ++ keep.map (fun k => dims.getD k 0) := by
    simp only [List.map_append, List.map_map]
    congr 1
    · congr 1
      · congr 1
        · refine List.map_congr_left fun k hk => ?_
          exact getD_append_left' _ _ _ ((hs.mem k).mp (Or.inl hk))
        · refine List.map_congr_left fun k hk => ?_
          exact getD_append_right' _ _ _
      · refine List.map_congr_left fun k hk => ?_
        exact getD_append_left' _ _ _ ((hs.mem k).mp (Or.inr hk))
    · refine List.map_congr_left fun k hk => ?_
      exact getD_append_right' _ _ _
  unfold traceOut
  simp only [NdArr.reshape, hbl, if_true, bind, Except.bind, NdArr.transpose, List.length_append]
  rw [if_pos (axes_perm hs)]
  simp only [hshape]
  rw [if_neg (by simp [hne, hne'])]
  set dr := rm.map (fun k => dims.getD k 0) with hdr
  set dk := keep.map (fun k => dims.getD k 0) with hdk
  rw [if_pos (by simp [List.prod_append])]
  simp only [pure, Except.pure, Except.ok.injEq]
  refine Arr.ext_entry (Arr.ofFn_wf _ _ _) (Arr.ofFn_wf _ _ _) rfl rfl ?_
  intro j hj k hk
  have hj' : j < dk.prod := hj
  have hk' : k < dk.prod := hk
  rw [trace4, Arr.entry_ofFn _ hj' hk', Arr.entry_ofFn _ hj' hk']
  refine Finset.sum_congr rfl fun i hi => ?_
  have hi' : i < dr.prod := Finset.mem_range.mp hi
  have h1 : (i * dr.prod + i) < (dr ++ dr).prod := by rw [List.prod_append]; exact Arr.index_lt hi' hi'
  have h2 : (i * dr.prod + i) * dk.prod + j < (dr ++ dr ++ dk).prod := by
    rw [List.prod_append]; exact Arr.index_lt h1 hj'
  have h3 : ((i * dr.prod + i) * dk.prod + j) * dk.prod + k < (dr ++ dr ++ dk ++ dk).prod := by
    rw [List.prod_append]; exact Arr.index_lt h2 hk'
  rw [List.getD_eq_getElem _ _ (by simpa using h3)]
  simp only [List.getElem_map, List.getElem_range]
  rw [unravel_append _ _ _ _ h2 hk', unravel_append _ _ _ _ h1 hj', unravel_append _ _ _ _ hi' hi']
  have := old_index hs (unravel dr i) (unravel dr i) (unravel dk j) (unravel dk k)
    (by simp [unravel_length, hdr]) (by simp [unravel_length, hdr]) (by simp [unravel_length, hdk])
  rw [this, ravel_append _ _ _ _ (mergeIdx_length _ _ _ _ _)]
  simp only [Arr.entry, joinIdx, hc]
  rfl

/-- `ptrace` of a square matrix is the chain applied to it. -/
theorem ptrace_square {K : Type} [CommRing K] [StarRing K] (order : List Nat → List Nat) (a : Arr K)
    (dims remove : List Nat) (hr : a.rows = dims.prod) (hket : a.cols ≠ 1)
    (hlt : ∀ k ∈ remove, k < dims.length) :
    ptrace order a dims remove = traceOut a dims (sortedRemove remove) (keepOf order dims.length remove) := by
  have hp := sortedRemove_perm remove
  have hany : (sortedRemove remove).any (fun k => decide (dims.length ≤ k)) = false := by
    rw [List.any_eq_false]
    intro k hk
    have := hlt k (hp.mem_iff.mp hk)
    simpa using this
  simp only [ptrace, if_neg hket, pure, Except.pure, bind, Except.bind, hany]
  rw [if_neg (by simpa using hr)]
  simp

end Verif.Operator
