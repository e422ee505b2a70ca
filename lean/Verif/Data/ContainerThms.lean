import Verif.Data.Container
import Mathlib.Data.List.Forall2
import Mathlib.Data.List.Nodup
import Mathlib.Order.Basic

/-!
# C66, C67, C68: containers are faithful logs, dictionary round trips
-/

namespace Verif.Data
open Verif
variable {ρ : Type}

/-! ## C68 -/

/-- What the round trip does: it always succeeds, and it returns the result with its status removed. -/
theorem c68_round_trip_partial (r : Result ρ) : Result.fromDict r.toDict = .ok { r with status := .none } := by
  simp [Result.fromDict, Result.new, Result.toDict, resultKeys, valArg, List.lookup]

/-- **C68**: the round trip reproduces exactly the results without a status.  Every completed optimisation has one, so it is lost. -/
theorem c68_iff (r : Result ρ) : Result.fromDict r.toDict = .ok r ↔ r.status = .none := by
  rw [c68_round_trip_partial]
  constructor
  · intro h
    have := congrArg (fun x => x.status) (Except.ok.inj h)
    exact this.symm
  · intro h
    rw [← h]

/-- A result that ran out of time (status 5) loses this information. -/
theorem c68_violated : ∃ r : Result Unit, r.status = .int 5 ∧ Result.fromDict r.toDict ≠ .ok r :=
  ⟨⟨.none, .none, .none, .none, .none, .none, .none, .int 5, .none, .none, none⟩, rfl, fun h => by simpa using (c68_iff _).1 h⟩

/-- **C68** A dictionary with a key the constructor does not know is rejected with TypeError. -/
theorem c68_unknown_key (d : List (String × RVal ρ)) (key : String) (v : RVal ρ) (hk : key ∉ resultKeys) (hm : (key, v) ∈ d) :
    Result.fromDict d = .error .typeError := by
  unfold Result.fromDict Result.new
  rw [if_neg]
  simp only [List.all_eq_true, List.contains_iff_mem, not_forall]
  exact ⟨_, hm, hk⟩

example (r : Result Unit) : Result.fromDict (r.toDict ++ [("cost", .inl .none)]) = .error .typeError :=
  c68_unknown_key _ "cost" (.inl .none) (by decide) (by simp)

/-! ## C67 -/

/-- What a user sees of a container. -/
structure Content (ρ : Type) where
  finalCosts : List (Val ρ)
  indices : Val ρ
  initParameters : List (Val ρ)
  finalParameters : List (Val ρ)
  costs : List (Val ρ)
  parameters : List (Val ρ)
  status : List (Val ρ)
  statistics : List (Val ρ)
  storagePath : Val ρ
  fileName : Val ρ
  appendTime : Val ρ

/-- Reading all attributes. -/
def Container.content (c : Container ρ) (h : Heap ρ) : Content ρ :=
  { finalCosts := get h c.finalCosts, indices := c.indices, initParameters := get h c.initParameters,
    finalParameters := get h c.finalParameters, costs := get h c.costs, parameters := get h c.parameters, status := get h c.status,
    statistics := get h c.statistics, storagePath := c.storagePath, fileName := c.fileName, appendTime := c.appendTime }

/-- The two attributes the constructor replaces when they are `None`. -/
def Container.Proper (c : Container ρ) : Prop := c.indices ≠ .none ∧ c.storagePath ≠ .none

theorem new_toDict (c : Container ρ) (hc : c.Proper) (h : Heap ρ) : Container.new h c.toDict = .ok (c, h) := by
  obtain ⟨h1, h2⟩ := hc
  have e1 : (match c.storagePath with | .none => Val.str defaultPath | p => p) = c.storagePath := by
    cases hp : c.storagePath <;> simp_all
  have e2 : (match c.indices with | .none => Val.names [] | i => i) = c.indices := by
    cases hp : c.indices <;> simp_all
  simp [Container.new, Container.toDict, containerKeys, arg, List.lookup, orNew, bind, Except.bind, e1, e2]

/-- **C67**: the round trip through the dictionary succeeds and gives a container with equal content; no list is changed. -/
theorem c67_round_trip (c : Container ρ) (hc : c.Proper) (h : Heap ρ) :
    ∃ c' h', Container.fromDict h c.toDict = .ok (c', h') ∧ c'.content h' = c.content h ∧ h' = h :=
  ⟨c, h, new_toDict c hc h, rfl, rfl⟩

/-- Every constructed container is proper. -/
theorem c67_constructed (h : Heap ρ) (kw : List (String × Val ρ)) (c : Container ρ) (h' : Heap ρ) (hn : Container.new h kw = .ok (c, h')) :
    c.Proper := by
  unfold Container.new at hn
  split at hn
  · simp only [bind, Except.bind] at hn
    repeat' split at hn
    all_goals first
      | cases hn; done
      | skip
    all_goals
      simp only [Except.ok.injEq, Prod.mk.injEq] at hn
      obtain ⟨rfl, _⟩ := hn
      refine ⟨?_, ?_⟩ <;> simp_all
  · cases hn

/-- An error of the opposite kind: a dictionary with a key the constructor does not know is rejected. -/
theorem c67_unknown_key (h : Heap ρ) (d : List (String × Val ρ)) (key : String) (v : Val ρ) (hk : key ∉ containerKeys) :
    Container.fromDict h ((key, v) :: d) = .error .typeError := by
  unfold Container.fromDict Container.new
  rw [if_neg]
  simp [hk]

/-! ## C66 -/

section
variable [DecidableEq ρ]

/-- The program: a number of containers, each created without arguments; results are appended to them in any order; a caller
catches the exceptions. -/
inductive Op (ρ : Type) where
  | create
  | append (i : Nat) (r : Result ρ)

/-- Containers and lists. -/
structure World (ρ : Type) where
  heap : Heap ρ
  containers : List (Container ρ)

/-- One step, with its outcome. -/
def World.step (w : World ρ) : Op ρ → World ρ × Option PyErr
  | .create => match Container.new w.heap [] with
    | .ok (c, h) => ({ heap := h, containers := w.containers ++ [c] }, none)
    | .error e => (w, some e)
  | .append i r => match w.containers[i]? with
    | none => (w, none)
    | some c => match c.append w.heap r with
      | .ok (c, h) => ({ heap := h, containers := w.containers.set i c }, none)
      | .error e => (w, some e)

/-- A history. -/
def World.run (w : World ρ) (l : List (Op ρ)) : World ρ := l.foldl (fun w o => (w.step o).1) w

/-- Specification: the logs of all containers; a result is refused when its cost indices differ from those already in the log. -/
def logs : List (List (Result ρ)) → List (Op ρ) → List (List (Result ρ))
  | ls, [] => ls
  | ls, .create :: l => logs (ls ++ [[]]) l
  | ls, .append i r :: l =>
    logs (ls.modify i fun log => if log.all (fun r' => r'.indices = r.indices) then log ++ [r] else log) l

/-- The list addresses of a container. -/
def Container.addresses (c : Container ρ) : List Nat :=
  [c.finalCosts, c.initParameters, c.finalParameters, c.costs, c.parameters, c.status, c.statistics]

/-- The stored costs (or parameters) `v` of a run are those of its summary `s`, or an empty list when there is none. -/
def SummaryEntry (h : Heap ρ) (used : List Nat) (s : Option (Val ρ)) (v : Val ρ) : Prop :=
  match s with
  | some x => v = x
  | none => ∃ a, v = .list a ∧ a < h.length ∧ get h a = [] ∧ a ∉ used

/-- The container's lists hold the data of the results of the log, in order. -/
structure Holds (h : Heap ρ) (used : List Nat) (c : Container ρ) (log : List (Result ρ)) : Prop where
  finalCosts : get h c.finalCosts = log.map (·.finalCost)
  initParameters : get h c.initParameters = log.map (·.initParameters)
  finalParameters : get h c.finalParameters = log.map (·.finalParameters)
  status : get h c.status = log.map (·.status)
  statistics : get h c.statistics = log.map (·.optimizationStats)
  costs : List.Forall₂ (fun (r : Result ρ) v => SummaryEntry h used (r.optimSummary.map Prod.fst) v) log (get h c.costs)
  parameters : List.Forall₂ (fun (r : Result ρ) v => SummaryEntry h used (r.optimSummary.map Prod.snd) v) log (get h c.parameters)
  indices : ∀ r ∈ log, r.indices = c.indices

/-- The invariant: all lists of all containers are different objects, and each container holds its log. -/
structure Inv (w : World ρ) (ls : List (List (Result ρ))) : Prop where
  nodup : (w.containers.flatMap Container.addresses).Nodup
  bound : ∀ a ∈ w.containers.flatMap Container.addresses, a < w.heap.length
  length : w.containers.length = ls.length
  holds : ∀ (i : Nat) (c : Container ρ) (log : List (Result ρ)), w.containers[i]? = some c → ls[i]? = some log →
    Holds w.heap (w.containers.flatMap Container.addresses) c log

omit [DecidableEq ρ] in
theorem length_push (h : Heap ρ) (a : Nat) (x : Val ρ) : (push h a x).length = h.length := by simp [push]

omit [DecidableEq ρ] in
theorem get_push_self (h : Heap ρ) (a : Nat) (x : Val ρ) (ha : a < h.length) : get (push h a x) a = get h a ++ [x] := by
  simp [push, get, ha]

omit [DecidableEq ρ] in
theorem get_push_ne (h : Heap ρ) (a b : Nat) (x : Val ρ) (hab : a ≠ b) : get (push h a x) b = get h b := by
  simp [push, get, List.getElem?_set_ne hab]

/-- Several appends. -/
def pushAll (h : Heap ρ) (l : List (Nat × Val ρ)) : Heap ρ := l.foldl (fun h p => push h p.1 p.2) h

omit [DecidableEq ρ] in
theorem length_pushAll : ∀ (l : List (Nat × Val ρ)) (h : Heap ρ), (pushAll h l).length = h.length
  | [], _ => rfl
  | p :: l, h => (length_pushAll l (push h p.1 p.2)).trans (length_push h _ _)

omit [DecidableEq ρ] in
theorem get_pushAll_ne : ∀ (l : List (Nat × Val ρ)) (h : Heap ρ) (b : Nat), b ∉ l.map Prod.fst → get (pushAll h l) b = get h b
  | [], _, _, _ => rfl
  | p :: l, h, b, hb => by
    simp only [List.map_cons, List.mem_cons, not_or] at hb
    exact (get_pushAll_ne l (push h p.1 p.2) b hb.2).trans (get_push_ne h _ _ _ (Ne.symm hb.1))

omit [DecidableEq ρ] in
theorem get_pushAll : ∀ (l : List (Nat × Val ρ)) (h : Heap ρ) (a : Nat) (x : Val ρ), (l.map Prod.fst).Nodup →
    (∀ b ∈ l.map Prod.fst, b < h.length) → (a, x) ∈ l → get (pushAll h l) a = get h a ++ [x]
  | p :: l, h, a, x, hn, hb, hm => by
    rw [List.map_cons, List.nodup_cons] at hn
    rcases List.mem_cons.1 hm with rfl | hm
    · exact (get_pushAll_ne l _ _ hn.1).trans (get_push_self h a x (hb a (by simp)))
    · have ha : a ∈ l.map Prod.fst := List.mem_map.2 ⟨_, hm, rfl⟩
      refine (get_pushAll l (push h p.1 p.2) a x hn.2 (fun b hb' => ?_) hm).trans ?_
      · rw [length_push]; exact hb b (by simp only [List.map_cons, List.mem_cons]; exact Or.inr hb')
      · rw [get_push_ne]
        rintro rfl
        exact hn.1 ha

theorem forall₂_imp {α β : Type} {R S : α → β → Prop} (h : ∀ a b, R a b → S a b) {l : List α} {m : List β}
    (hl : List.Forall₂ R l m) : List.Forall₂ S l m := by
  induction hl with
  | nil => exact .nil
  | cons hab _ ih => exact .cons (h _ _ hab) ih

omit [DecidableEq ρ] in
theorem SummaryEntry.frame {h h' : Heap ρ} {used used' : List Nat} {s : Option (Val ρ)} {v : Val ρ} (hs : SummaryEntry h used s v)
    (h1 : h.length ≤ h'.length) (h2 : ∀ a, a < h.length → a ∉ used → get h' a = get h a)
    (h3 : ∀ a, a < h.length → a ∉ used → a ∉ used') : SummaryEntry h' used' s v := by
  cases s with
  | some x => exact hs
  | none =>
    obtain ⟨a, e1, e2, e3, e4⟩ := hs
    exact ⟨a, e1, by omega, by rw [h2 a e2 e4, e3], h3 a e2 e4⟩

omit [DecidableEq ρ] in
theorem Holds.frame {h h' : Heap ρ} {used used' : List Nat} {c : Container ρ} {log : List (Result ρ)} (hh : Holds h used c log)
    (h0 : ∀ a ∈ c.addresses, get h' a = get h a)
    (h1 : h.length ≤ h'.length) (h2 : ∀ a, a < h.length → a ∉ used → get h' a = get h a)
    (h3 : ∀ a, a < h.length → a ∉ used → a ∉ used') : Holds h' used' c log := by
  refine ⟨?_, ?_, ?_, ?_, ?_, ?_, ?_, hh.indices⟩
  · rw [h0 _ (by simp [Container.addresses])]; exact hh.finalCosts
  · rw [h0 _ (by simp [Container.addresses])]; exact hh.initParameters
  · rw [h0 _ (by simp [Container.addresses])]; exact hh.finalParameters
  · rw [h0 _ (by simp [Container.addresses])]; exact hh.status
  · rw [h0 _ (by simp [Container.addresses])]; exact hh.statistics
  · rw [h0 _ (by simp [Container.addresses])]; exact forall₂_imp (fun _ _ x => x.frame h1 h2 h3) hh.costs
  · rw [h0 _ (by simp [Container.addresses])]; exact forall₂_imp (fun _ _ x => x.frame h1 h2 h3) hh.parameters

/-! ### Creating a container -/

omit [DecidableEq ρ] in
theorem new_empty (h : Heap ρ) : ∃ c, Container.new h [] = .ok (c, h ++ [[], [], [], [], [], [], []]) ∧
    c.addresses = [h.length, h.length + 1, h.length + 2, h.length + 3, h.length + 4, h.length + 5, h.length + 6] := by
  refine ⟨⟨h.length, .names [], h.length + 1, h.length + 2, h.length + 3, h.length + 4, h.length + 5, h.length + 6,
    .str defaultPath, .str "Temp File", .bool true⟩, ?_, rfl⟩
  simp [Container.new, arg, List.lookup, orNew, bind, Except.bind]

omit [DecidableEq ρ] in
theorem get_append_lt (h l : Heap ρ) (a : Nat) (ha : a < h.length) : get (h ++ l) a = get h a := by
  simp [get, List.getElem?_append_left ha]

omit [DecidableEq ρ] in
theorem get_append_nil (h l : Heap ρ) (hl : ∀ x ∈ l, x = []) (a : Nat) (ha : h.length ≤ a) : get (h ++ l) a = [] := by
  simp only [get, List.getD_eq_getElem?_getD, List.getElem?_append_right ha]
  cases e : l[a - h.length]? with
  | none => rfl
  | some x => exact hl x (List.mem_of_getElem? e)

omit [DecidableEq ρ] in
theorem inv_create (w : World ρ) (ls) (hi : Inv w ls) (c : Container ρ) (h' : Heap ρ) (hc : Container.new w.heap [] = .ok (c, h')) :
    Inv { heap := h', containers := w.containers ++ [c] } (ls ++ [[]]) := by
  obtain ⟨c', e1, e2⟩ := new_empty w.heap
  rw [e1] at hc
  cases hc
  have hf : (w.containers ++ [c]).flatMap Container.addresses = w.containers.flatMap Container.addresses ++ c.addresses := by simp
  refine ⟨?_, ?_, by simp [hi.length], ?_⟩
  · rw [hf, List.nodup_append]
    refine ⟨hi.nodup, by rw [e2]; simp, ?_⟩
    intro a ha b hb
    have := hi.bound a ha
    rw [e2] at hb
    simp at hb
    omega
  · rw [hf]
    intro a ha
    rw [List.mem_append] at ha
    simp only [List.length_append, List.length_cons, List.length_nil]
    rcases ha with ha | ha
    · have := hi.bound a ha; omega
    · rw [e2] at ha; simp at ha; omega
  · intro i d log hd hl
    rw [hf]
    by_cases hlt : i < w.containers.length
    · rw [List.getElem?_append_left hlt] at hd
      rw [List.getElem?_append_left (hi.length ▸ hlt)] at hl
      refine (hi.holds i d log hd hl).frame (fun a ha => ?_) (by simp) (fun a ha _ => get_append_lt _ _ _ ha) (fun a ha hu => ?_)
      · exact get_append_lt _ _ _ (hi.bound a (List.mem_flatMap.2 ⟨d, List.mem_of_getElem? hd, ha⟩))
      · rw [List.mem_append, not_or]
        refine ⟨hu, ?_⟩
        rw [e2]
        simp
        omega
    · rw [List.getElem?_append_right (by omega)] at hd
      rw [List.getElem?_append_right (by rw [← hi.length]; omega), ← hi.length] at hl
      have hz : i - w.containers.length = 0 := by
        by_contra hne
        rw [List.getElem?_eq_none (by simp; omega)] at hd
        cases hd
      rw [hz] at hd hl
      simp at hd hl
      subst hd hl
      have hg : ∀ a ∈ c.addresses, get (w.heap ++ [[], [], [], [], [], [], []]) a = [] := by
        intro a ha
        refine get_append_nil _ _ (by simp) _ ?_
        rw [e2] at ha
        simp at ha
        omega
      exact ⟨hg _ (by simp [Container.addresses]), hg _ (by simp [Container.addresses]), hg _ (by simp [Container.addresses]),
        hg _ (by simp [Container.addresses]), hg _ (by simp [Container.addresses]),
        by rw [hg _ (by simp [Container.addresses])]; exact .nil, by rw [hg _ (by simp [Container.addresses])]; exact .nil, by simp⟩

/-! ### Appending a result -/

/-- What is stored as costs and parameters, and the heap with the lists created for them. -/
def entries (h : Heap ρ) (r : Result ρ) : Val ρ × Val ρ × Heap ρ :=
  match r.optimSummary with
  | none => (Val.list h.length, Val.list (h.length + 1), h ++ [[], []])
  | some (a, b) => (a, b, h)

/-- The seven appends. -/
def updates (c : Container ρ) (h : Heap ρ) (r : Result ρ) : List (Nat × Val ρ) :=
  [(c.finalCosts, r.finalCost), (c.initParameters, r.initParameters), (c.finalParameters, r.finalParameters), (c.costs, (entries h r).1),
    (c.parameters, (entries h r).2.1), (c.status, r.status), (c.statistics, r.optimizationStats)]

theorem append_eq (c : Container ρ) (h : Heap ρ) (r : Result ρ) : c.append h r =
    if c.len (entries h r).2.2 = 0 ∨ c.indices = r.indices then
      .ok (if c.len (entries h r).2.2 = 0 then { c with indices := r.indices } else c, pushAll (entries h r).2.2 (updates c h r))
    else .error .assertionError := by
  cases hs : r.optimSummary
  all_goals
    simp only [Container.append, entries, updates, hs]
    split
    · split <;> rfl
    · rfl

omit [DecidableEq ρ] in
theorem Holds.len {h : Heap ρ} {used} {c : Container ρ} {log : List (Result ρ)} (hh : Holds h used c log) : c.len h = log.length :=
  hh.costs.length_eq.symm

omit [DecidableEq ρ] in
theorem flatMap_set_same (l : List (Container ρ)) (i : Nat) (c c' : Container ρ) (hc : l[i]? = some c) (he : c'.addresses = c.addresses) :
    (l.set i c').flatMap Container.addresses = l.flatMap Container.addresses := by
  obtain ⟨hi, rfl⟩ := List.getElem?_eq_some_iff.1 hc
  rw [List.flatMap_def, List.flatMap_def, List.map_set, he]
  congr 1
  refine List.ext_getElem (by simp) fun j h1 h2 => ?_
  rw [List.getElem_set]
  split
  · next e => subst e; simp
  · rfl

omit [DecidableEq ρ] in
theorem addresses_disjoint {l : List (Container ρ)} (hn : (l.flatMap Container.addresses).Nodup) {i j : Nat} {c d : Container ρ}
    (hi : l[i]? = some c) (hj : l[j]? = some d) (hij : i ≠ j) (a : Nat) (hc : a ∈ c.addresses) : a ∉ d.addresses := by
  obtain ⟨hi', rfl⟩ := List.getElem?_eq_some_iff.1 hi
  obtain ⟨hj', rfl⟩ := List.getElem?_eq_some_iff.1 hj
  rw [List.nodup_flatMap] at hn
  have hp := List.pairwise_iff_getElem.1 hn.2
  intro hd
  rcases Nat.lt_or_gt_of_ne hij with h | h
  · exact hp i j hi' hj' h hc hd
  · exact hp j i hj' hi' h hd hc

omit [DecidableEq ρ] in
theorem addresses_nodup {l : List (Container ρ)} (hn : (l.flatMap Container.addresses).Nodup) {i : Nat} {c : Container ρ}
    (hi : l[i]? = some c) : c.addresses.Nodup :=
  (List.nodup_flatMap.1 hn).1 c (List.mem_of_getElem? hi)

theorem inv_append (w : World ρ) (ls) (hinv : Inv w ls) (i : Nat) (c : Container ρ) (r : Result ρ) (hc : w.containers[i]? = some c) :
    Inv (w.step (.append i r)).1 (ls.modify i fun log => if log.all (fun r' => r'.indices = r.indices) then log ++ [r] else log) ∧
    ((w.step (.append i r)).2 = some .assertionError ∨ (w.step (.append i r)).2 = none) := by
  have hlt : i < w.containers.length := (List.getElem?_eq_some_iff.1 hc).1
  obtain ⟨log, hlog⟩ : ∃ log, ls[i]? = some log := ⟨_, List.getElem?_eq_getElem (hinv.length ▸ hlt)⟩
  have hh := hinv.holds i c log hc hlog
  set used := w.containers.flatMap Container.addresses with hused
  have hbound : ∀ a ∈ c.addresses, a < w.heap.length := fun a ha =>
    hinv.bound a (List.mem_flatMap.2 ⟨c, List.mem_of_getElem? hc, ha⟩)
  -- the heap with the new lists
  set h1 := (entries w.heap r).2.2 with hh1
  have hext : ∀ a, a < w.heap.length → get h1 a = get w.heap a := by
    intro a ha
    rw [hh1]; unfold entries
    cases r.optimSummary
    · exact get_append_lt _ _ _ ha
    · rfl
  have hlen1 : w.heap.length ≤ h1.length := by
    rw [hh1]; unfold entries
    cases r.optimSummary <;> simp
  have hclen : c.len h1 = log.length := by
    rw [← hh.len]
    unfold Container.len
    rw [hext _ (hbound _ (by simp [Container.addresses]))]
  have hall : log.all (fun r' => decide (r'.indices = r.indices)) = true ↔ c.len h1 = 0 ∨ c.indices = r.indices := by
    rw [hclen, List.all_eq_true]
    constructor
    · intro h
      cases log with
      | nil => left; rfl
      | cons x l =>
        right
        rw [← hh.indices x (by simp)]
        simpa using h x (by simp)
    · rintro (h | h) x hx
      · rw [List.length_eq_zero_iff.1 h] at hx; simp at hx
      · simp [hh.indices x hx, h]
  simp only [World.step, hc, append_eq, ← hh1]
  by_cases hok : c.len h1 = 0 ∨ c.indices = r.indices
  swap
  · rw [if_neg hok]
    refine ⟨?_, by simp⟩
    have : ls.modify i (fun log => if log.all (fun r' => decide (r'.indices = r.indices)) then log ++ [r] else log) = ls := by
      refine List.ext_getElem? fun j => ?_
      rw [List.getElem?_modify]
      split
      · next e =>
        subst e
        rw [hlog, Option.map_eq_map, Option.map_some, if_neg (by rw [hall]; exact hok)]
      · simp
    rw [this]
    exact hinv
  rw [if_pos hok]
  refine ⟨?_, by simp⟩
  simp only
  set c' : Container ρ := if c.len h1 = 0 then { c with indices := r.indices } else c with hc'
  have haddr : c'.addresses = c.addresses := by rw [hc']; split <;> rfl
  have hidx : c'.indices = r.indices := by
    rw [hc']
    split
    · rfl
    · next h => exact hok.resolve_left h
  set ups := updates c w.heap r with hups
  have hkeys : ups.map Prod.fst = c.addresses := rfl
  have hnod : (ups.map Prod.fst).Nodup := by rw [hkeys]; exact addresses_nodup hinv.nodup hc
  have hb1 : ∀ a ∈ ups.map Prod.fst, a < h1.length := fun a ha => Nat.lt_of_lt_of_le (hbound a (hkeys ▸ ha)) hlen1
  have hset : (w.containers.set i c').flatMap Container.addresses = used := flatMap_set_same _ i c c' hc haddr
  have hother : ∀ a, a < w.heap.length → a ∉ c.addresses → get (pushAll h1 ups) a = get w.heap a := fun a ha hn =>
    (get_pushAll_ne ups h1 a (by rw [hkeys]; exact hn)).trans (hext a ha)
  have hmem : ∀ a ∈ c.addresses, a ∈ used := fun a ha => List.mem_flatMap.2 ⟨c, List.mem_of_getElem? hc, ha⟩
  have hframe : ∀ a, a < w.heap.length → a ∉ used → get (pushAll h1 ups) a = get w.heap a := fun a ha hn =>
    hother a ha fun hm => hn (hmem a hm)
  have hself : ∀ a x, (a, x) ∈ ups → get (pushAll h1 ups) a = get w.heap a ++ [x] := fun a x hm => by
    rw [get_pushAll ups h1 a x hnod hb1 hm, hext a (hbound a (by rw [← hkeys]; exact List.mem_map.2 ⟨_, hm, rfl⟩))]
  have hlen2 : w.heap.length ≤ (pushAll h1 ups).length := by rw [length_pushAll]; exact hlen1
  refine ⟨by simpa only [hset] using hinv.nodup, ?_, by simp [hinv.length], ?_⟩
  · simp only [hset]
    intro a ha
    exact Nat.lt_of_lt_of_le (hinv.bound a ha) hlen2
  · intro j d log' hd hl'
    simp only [hset]
    by_cases hij : i = j
    · subst hij
      rw [List.getElem?_set_self hlt] at hd
      cases hd
      rw [List.getElem?_modify_eq, hlog, Option.map_eq_map, Option.map_some, if_pos (hall.2 hok)] at hl'
      cases hl'
      have hne : ∀ a b, a ∉ used → get w.heap a = get w.heap b → True := fun _ _ _ _ => trivial
      -- the new entries
      have hnew : SummaryEntry (pushAll h1 ups) used (r.optimSummary.map Prod.fst) (entries w.heap r).1 ∧
          SummaryEntry (pushAll h1 ups) used (r.optimSummary.map Prod.snd) (entries w.heap r).2.1 := by
        cases hs : r.optimSummary with
        | some p => simp [SummaryEntry, entries, hs]
        | none =>
          have e1 : h1 = w.heap ++ [[], []] := by rw [hh1]; unfold entries; rw [hs]
          have hge : ∀ a, w.heap.length ≤ a → a ∉ used ∧ get (pushAll h1 ups) a = [] := by
            intro a ha
            have hu : a ∉ used := fun hm => by have := hinv.bound a hm; omega
            refine ⟨hu, ?_⟩
            rw [get_pushAll_ne _ _ _ (by rw [hkeys]; exact fun hm => hu (hmem a hm)), e1]
            exact get_append_nil _ _ (by simp) _ ha
          have e2 : (pushAll h1 ups).length = w.heap.length + 2 := by rw [length_pushAll, e1]; simp
          simp only [Option.map_none, SummaryEntry, entries, hs]
          refine ⟨⟨w.heap.length, rfl, by omega, (hge _ (Nat.le_refl _)).2, (hge _ (Nat.le_refl _)).1⟩,
            ⟨w.heap.length + 1, rfl, by omega, (hge _ (by omega)).2, (hge _ (by omega)).1⟩⟩
      have f : ∀ {s v}, SummaryEntry w.heap used s v → SummaryEntry (pushAll h1 ups) used s v := fun hs =>
        hs.frame hlen2 hframe fun _ _ hu => hu
      have c1 : c'.finalCosts = c.finalCosts ∧ c'.initParameters = c.initParameters ∧ c'.finalParameters = c.finalParameters ∧
          c'.costs = c.costs ∧ c'.parameters = c.parameters ∧ c'.status = c.status ∧ c'.statistics = c.statistics := by
        rw [hc']; split <;> exact ⟨rfl, rfl, rfl, rfl, rfl, rfl, rfl⟩
      obtain ⟨a1, a2, a3, a4, a5, a6, a7⟩ := c1
      refine ⟨?_, ?_, ?_, ?_, ?_, ?_, ?_, ?_⟩
      · rw [a1, hself _ r.finalCost (by simp [hups, updates]), hh.finalCosts]; simp
      · rw [a2, hself _ r.initParameters (by simp [hups, updates]), hh.initParameters]; simp
      · rw [a3, hself _ r.finalParameters (by simp [hups, updates]), hh.finalParameters]; simp
      · rw [a6, hself _ r.status (by simp [hups, updates]), hh.status]; simp
      · rw [a7, hself _ r.optimizationStats (by simp [hups, updates]), hh.statistics]; simp
      · rw [a4, hself _ (entries w.heap r).1 (by simp [hups, updates])]
        exact List.rel_append (forall₂_imp (fun _ _ => f) hh.costs) (.cons hnew.1 .nil)
      · rw [a5, hself _ (entries w.heap r).2.1 (by simp [hups, updates])]
        exact List.rel_append (forall₂_imp (fun _ _ => f) hh.parameters) (.cons hnew.2 .nil)
      · intro x hx
        rw [hidx]
        rcases List.mem_append.1 hx with hx | hx
        · have := List.all_eq_true.1 (hall.2 hok) x hx
          simpa using this
        · simp at hx; rw [hx]
    · rw [List.getElem?_set_ne hij] at hd
      rw [List.getElem?_modify] at hl'
      simp [hij] at hl'
      refine (hinv.holds j d log' hd hl').frame (fun a ha => ?_) hlen2 hframe fun _ _ hu => hu
      exact hother a (hinv.bound a (List.mem_flatMap.2 ⟨d, List.mem_of_getElem? hd, ha⟩))
        (addresses_disjoint hinv.nodup hd hc (Ne.symm hij) a ha)

theorem inv_run : ∀ (l : List (Op ρ)) (w : World ρ) (ls), Inv w ls → Inv (w.run l) (logs ls l)
  | [], _, _, h => h
  | .create :: l, w, ls, h => by
    obtain ⟨c, e, -⟩ := new_empty w.heap
    have hs : (w.step .create).1 = { heap := w.heap ++ [[], [], [], [], [], [], []], containers := w.containers ++ [c] } := by
      simp [World.step, e]
    have := inv_run l (w.step .create).1 (ls ++ [[]]) (hs ▸ inv_create w ls h c _ e)
    exact this
  | .append i r :: l, w, ls, h => by
    unfold logs
    cases hc : w.containers[i]? with
    | none =>
      have hs : (w.step (.append i r)).1 = w := by simp [World.step, hc]
      have hl : ls.modify i (fun log => if log.all (fun r' => decide (r'.indices = r.indices)) then log ++ [r] else log) = ls := by
        refine List.modify_eq_self ?_
        rw [← h.length]
        exact List.getElem?_eq_none_iff.1 hc
      rw [hl]
      have := inv_run l w ls h
      simp only [World.run, List.foldl_cons, hs] at this ⊢
      exact this
    | some c => exact inv_run l (w.step (.append i r)).1 _ (inv_append w ls h i c r hc).1

/-- No containers, whatever lists there are already. -/
def World.start (h : Heap ρ) : World ρ := { heap := h, containers := [] }

omit [DecidableEq ρ] in
theorem start_inv (h : Heap ρ) : Inv (World.start h) [] := by
  refine ⟨by simp [World.start], by simp [World.start], rfl, fun i c log hc => ?_⟩
  simp [World.start] at hc

/-- **C66**: after any history with any number of containers, the length of each container is the number of results accepted by
it, each of its lists has that length, and entry `k` of each list is the data of the k-th of these results (for costs and
parameters: the lists of its summary, or an empty list when the run has no summary). -/
theorem c66_faithful_log (h : Heap ρ) (l : List (Op ρ)) (i : Nat) (c : Container ρ) (hc : ((World.start h).run l).containers[i]? = some c) :
    ∃ log, (logs [] l)[i]? = some log ∧
      let heap := ((World.start h).run l).heap
      c.len heap = log.length ∧ (∀ a ∈ c.addresses, (get heap a).length = log.length) ∧
      ∀ (k : Nat) (r : Result ρ), log[k]? = some r →
        (get heap c.finalCosts)[k]? = some r.finalCost ∧ (get heap c.initParameters)[k]? = some r.initParameters ∧
        (get heap c.finalParameters)[k]? = some r.finalParameters ∧ (get heap c.status)[k]? = some r.status ∧
        (get heap c.statistics)[k]? = some r.optimizationStats ∧
        (∃ v, (get heap c.costs)[k]? = some v ∧ ∀ s, r.optimSummary = some s → v = s.1) ∧
        (∃ v, (get heap c.parameters)[k]? = some v ∧ ∀ s, r.optimSummary = some s → v = s.2) ∧
        (r.optimSummary = none → ∃ a b, (get heap c.costs)[k]? = some (.list a) ∧ get heap a = [] ∧
          (get heap c.parameters)[k]? = some (.list b) ∧ get heap b = []) ∧
        c.indices = r.indices := by
  have hinv := inv_run l (World.start h) [] (start_inv h)
  have hi : i < (logs [] l).length := by rw [← hinv.length]; exact (List.getElem?_eq_some_iff.1 hc).1
  refine ⟨(logs [] l)[i], List.getElem?_eq_getElem hi, ?_⟩
  have hh := hinv.holds i c _ hc (List.getElem?_eq_getElem hi)
  generalize (logs [] l)[i] = log at hh
  refine ⟨hh.len, ?_, ?_⟩
  · intro a ha
    simp only [Container.addresses, List.mem_cons, List.not_mem_nil, or_false] at ha
    rcases ha with rfl | rfl | rfl | rfl | rfl | rfl | rfl
    · rw [hh.finalCosts]; simp
    · rw [hh.initParameters]; simp
    · rw [hh.finalParameters]; simp
    · exact hh.costs.length_eq.symm
    · exact hh.parameters.length_eq.symm
    · rw [hh.status]; simp
    · rw [hh.statistics]; simp
  · intro k r hr
    have hk : k < log.length := (List.getElem?_eq_some_iff.1 hr).1
    have hrr : log[k] = r := (List.getElem?_eq_some_iff.1 hr).2
    obtain ⟨l1, f1⟩ := List.forall₂_iff_get.1 hh.costs
    obtain ⟨l2, f2⟩ := List.forall₂_iff_get.1 hh.parameters
    have g1 := f1 k hk (by omega)
    have g2 := f2 k hk (by omega)
    simp only [List.get_eq_getElem, hrr] at g1 g2
    have q1 := List.getElem?_eq_getElem (l := get ((World.start h).run l).heap c.costs) (i := k) (by omega)
    have q2 := List.getElem?_eq_getElem (l := get ((World.start h).run l).heap c.parameters) (i := k) (by omega)
    refine ⟨by rw [hh.finalCosts]; simp [hr], by rw [hh.initParameters]; simp [hr], by rw [hh.finalParameters]; simp [hr],
      by rw [hh.status]; simp [hr], by rw [hh.statistics]; simp [hr], ⟨_, q1, fun s hs => ?_⟩, ⟨_, q2, fun s hs => ?_⟩, fun hs => ?_,
      (hh.indices r (List.mem_of_getElem? hr)).symm⟩
    · rw [hs] at g1; exact g1
    · rw [hs] at g2; exact g2
    · rw [hs] at g1 g2
      obtain ⟨a, a1, a2, a3, a4⟩ := g1
      obtain ⟨b, b1, b2, b3, b4⟩ := g2
      exact ⟨a, b, by rw [q1, a1], a3, by rw [q2, b1], b3⟩

/-- **C66**: when all results for a container have the same cost indices, none is refused. -/
theorem c66_nothing_refused (log : List (Result ρ)) (l : List (Op ρ)) (hl : ∀ o ∈ l, ∃ r, o = .append 0 r) (r0 : Result ρ)
    (h : ∀ r, Op.append 0 r ∈ l → r.indices = r0.indices) (h0 : ∀ r ∈ log, r.indices = r0.indices) :
    logs [log] l = [log ++ l.filterMap fun o => match o with | .append _ r => some r | .create => none] := by
  induction l generalizing log with
  | nil => simp [logs]
  | cons o l ih =>
    obtain ⟨r, rfl⟩ := hl o (by simp)
    have hr := h r (by simp)
    have hall : log.all (fun r' => decide (r'.indices = r.indices)) = true := by
      simp only [List.all_eq_true, decide_eq_true_eq]
      intro x hx; rw [h0 x hx, hr]
    have := ih (log ++ [r]) (fun o ho => hl o (by simp [ho])) (fun r' hr' => h r' (by simp [hr'])) (by
      intro x hx
      rcases List.mem_append.1 hx with hx | hx
      · exact h0 x hx
      · simp at hx; rw [hx, hr])
    simp only [logs, List.modify_zero_cons, List.filterMap_cons, if_pos hall, this]
    simp

end

/-! ## Copies -/

/-- **C81** fails: `copy.deepcopy` of a container raises a TypeError for every container. -/
theorem c81_violated (c : Container ρ) (h : Heap ρ) : c.deepcopy h = .error .typeError := rfl

/-- **C81** (partial): calling the method directly, without the argument the copy module passes, gives an equal container whose
lists are all new.  Missing: `copy.deepcopy`, see `c81_violated`. -/
theorem c81_method_partial (c : Container ρ) (hc : c.Proper) (h : Heap ρ) (hb : ∀ a ∈ c.addresses, a < h.length) :
    ∃ c' h', c.deepcopyMethod h 0 = .ok (c', h') ∧ c'.content h' = c.content h ∧ (∀ a ∈ c'.addresses, h.length ≤ a) ∧
      c'.addresses.Nodup ∧ ∀ a, a < h.length → get h' a = get h a := by
  obtain ⟨h1, h2⟩ := hc
  have e1 : (match c.storagePath with | .none => Val.str defaultPath | p => p) = c.storagePath := by
    cases hp : c.storagePath <;> simp_all
  have e2 : (match c.indices with | .none => Val.names [] | i => i) = c.indices := by
    cases hp : c.indices <;> simp_all
  have g : ∀ (l : Heap ρ) a, a ∈ c.addresses → get (h ++ l) a = get h a := fun l a ha => get_append_lt _ _ _ (hb a ha)
  simp only [Container.addresses, List.mem_cons, List.not_mem_nil, or_false] at g
  have hnew : c.deepcopyMethod h 0 = .ok ({ c with
      finalCosts := h.length, initParameters := h.length + 1, finalParameters := h.length + 2, costs := h.length + 3,
      parameters := h.length + 4, status := h.length + 5, statistics := h.length + 6 },
      h ++ [get h c.finalCosts, get h c.initParameters, get h c.finalParameters, get h c.costs, get h c.parameters, get h c.status,
        get h c.statistics]) := by
    simp [Container.deepcopyMethod, copyList, Container.new, containerKeys, arg, List.lookup, orNew, bind, Except.bind, e1, e2, g]
  refine ⟨_, _, hnew, ?_, ?_, ?_, fun a ha => get_append_lt _ _ _ ha⟩
  · simp [Container.content, get]
  · simp [Container.addresses]
  · simp [Container.addresses]

/-! ## Examples -/

/-- Two containers, three results (one of them without summary, one refused). -/
def exResult (s : Option (Val Nat × Val Nat)) (x : Nat) (names : List String) : Result Nat :=
  ⟨.obj x, .names names, .obj (x + 1), .none, .none, .none, .none, .int 1, .none, .none, s⟩

example : logs [] [.create, .create, .append 0 (exResult none 1 ["F"]), .append 0 (exResult none 5 ["G"]),
      .append 0 (exResult (some (.obj 7, .obj 8)) 3 ["F"])] =
    [[exResult none 1 ["F"], exResult (some (.obj 7, .obj 8)) 3 ["F"]], []] := by
  simp [logs, exResult, List.modify]

example : ∃ c, ((World.start ([] : Heap Nat)).run [.create, .create, .append 0 (exResult none 1 ["F"]),
    .append 0 (exResult none 5 ["G"]), .append 0 (exResult (some (.obj 7, .obj 8)) 3 ["F"])]).containers[0]? = some c ∧
    c.len ((World.start ([] : Heap Nat)).run [.create, .create, .append 0 (exResult none 1 ["F"]),
    .append 0 (exResult none 5 ["G"]), .append 0 (exResult (some (.obj 7, .obj 8)) 3 ["F"])]).heap = 2 := by
  refine ⟨_, rfl, rfl⟩

/-- A proper container, as in C67 and C81. -/
example : ∃ c h, Container.new ([] : Heap Nat) [("indices", .names ["F"]), ("file_name", .str "run")] = .ok (c, h) ∧ c.Proper ∧
    ∀ a ∈ c.addresses, a < h.length := by
  refine ⟨_, _, rfl, ⟨by simp [arg, List.lookup], by simp [arg, List.lookup]⟩, ?_⟩
  simp [Container.addresses]

end Verif.Data
