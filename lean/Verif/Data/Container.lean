import Verif.Py
import Mathlib.Data.List.Basic

/-!
# The data container (data_container.py:113-286) and the optimisation result (optimization_data.py:108-171)

Lists are objects in a heap, because the constructor keeps the lists it is given and `_append` changes lists in place.
Everything that is stored (arrays, numbers, statistics objects) is an opaque value of type `ρ`.

Simplifications: files and pickling, the storage path default and the asynchronous writer are not modelled.
-/

namespace Verif.Data
open Verif

/-- A Python value that can occur as an argument: `None`, an opaque object, a list object (its address), the list of cost
indices, a string or a truth value. -/
inductive Val (ρ : Type) where
  | none
  | obj (x : ρ)
  | list (address : Nat)
  | names (l : List String)
  | str (s : String)
  | bool (b : Bool)
  | int (n : Int)
  deriving DecidableEq

/-- The fields of `OptimizationResult`, optimization_data.py:108-133. -/
structure Result (ρ : Type) where
  finalCost : Val ρ
  indices : Val ρ
  finalParameters : Val ρ
  finalGradNorm : Val ρ
  initParameters : Val ρ
  numIter : Val ρ
  terminationReason : Val ρ
  status : Val ρ
  optimizationStats : Val ρ
  optimizer : Val ρ
  /-- `None`, or the summary with its lists `costs` and `parameters` -/
  optimSummary : Option (Val ρ × Val ρ)

/-- The list objects. -/
abbrev Heap (ρ : Type) := List (List (Val ρ))

/-- `DataContainer`, the attributes set in data_container.py:129-148. -/
structure Container (ρ : Type) where
  finalCosts : Nat
  indices : Val ρ
  initParameters : Nat
  finalParameters : Nat
  costs : Nat
  parameters : Nat
  status : Nat
  statistics : Nat
  storagePath : Val ρ
  fileName : Val ρ
  appendTime : Val ρ

variable {ρ : Type}

/-- Reading a list. -/
def get (h : Heap ρ) (a : Nat) : List (Val ρ) := h.getD a []

/-- `[] if x is None else x`: a new list, or the list passed in. TypeError stands for an argument that is not a list (Python
would accept it and fail later). -/
def orNew (h : Heap ρ) : Val ρ → Except PyErr (Nat × Heap ρ)
  | .none => .ok (h.length, h ++ [[]])
  | .list a => .ok (a, h)
  | _ => .error .typeError

/-- The keyword arguments of `DataContainer.__init__`, data_container.py:113-124. -/
def containerKeys : List String :=
  ["storage_path", "file_name", "indices", "final_costs", "init_parameters", "final_parameters", "costs", "parameters", "status",
    "optimization_stats", "append_time_to_path"]

/-- The value of a keyword argument, or its default. -/
def arg (kw : List (String × Val ρ)) (key : String) (default : Val ρ) : Val ρ := (kw.lookup key).getD default

/-- The default of `storage_path`, data_container.py:126-128. -/
def defaultPath : String := "temp"

/-- `DataContainer.__init__`, data_container.py:113-148, called with keyword arguments; an unknown keyword is a TypeError.
`indices` is kept as it is, a missing one becomes an empty list. -/
def Container.new (h : Heap ρ) (kw : List (String × Val ρ)) : Except PyErr (Container ρ × Heap ρ) :=
  if kw.all (fun p => containerKeys.contains p.1) then do
    let path := match arg kw "storage_path" .none with
      | .none => .str defaultPath
      | p => p
    let (fc, h) ← orNew h (arg kw "final_costs" .none)
    let indices := match arg kw "indices" .none with
      | .none => .names []
      | i => i
    let (ip, h) ← orNew h (arg kw "init_parameters" .none)
    let (fp, h) ← orNew h (arg kw "final_parameters" .none)
    let (co, h) ← orNew h (arg kw "costs" .none)
    let (pa, h) ← orNew h (arg kw "parameters" .none)
    let (st, h) ← orNew h (arg kw "status" .none)
    let (os, h) ← orNew h (arg kw "optimization_stats" .none)
    .ok ({ finalCosts := fc, indices := indices, initParameters := ip, finalParameters := fp, costs := co, parameters := pa,
           status := st, statistics := os, storagePath := path, fileName := arg kw "file_name" (.str "Temp File"),
           appendTime := arg kw "append_time_to_path" (.bool true) }, h)
  else .error .typeError

/-- `DataContainer.__len__`, data_container.py:150-162. -/
def Container.len (c : Container ρ) (h : Heap ρ) : Nat := (get h c.costs).length

/-- `list.append`. -/
def push (h : Heap ρ) (a : Nat) (x : Val ρ) : Heap ρ := h.set a (get h a ++ [x])

/-- `DataContainer.append_optim_result` with `_append`, data_container.py:172-220.  Without a summary two new empty lists are
stored as the costs and parameters of the run. -/
def Container.append [DecidableEq ρ] (c : Container ρ) (h : Heap ρ) (r : Result ρ) : Except PyErr (Container ρ × Heap ρ) :=
  let (costs, parameters, h) := match r.optimSummary with
    | none => (Val.list h.length, Val.list (h.length + 1), h ++ [[], []])
    | some (a, b) => (a, b, h)
  if c.len h = 0 ∨ c.indices = r.indices then
    let c := if c.len h = 0 then { c with indices := r.indices } else c
    let h := push h c.finalCosts r.finalCost
    let h := push h c.initParameters r.initParameters
    let h := push h c.finalParameters r.finalParameters
    let h := push h c.costs costs
    let h := push h c.parameters parameters
    let h := push h c.status r.status
    let h := push h c.statistics r.optimizationStats
    .ok (c, h)
  else .error .assertionError

/-- `DataContainer._to_dict`, data_container.py:271-282. -/
def Container.toDict (c : Container ρ) : List (String × Val ρ) :=
  [("final_costs", .list c.finalCosts), ("indices", c.indices), ("init_parameters", .list c.initParameters),
    ("final_parameters", .list c.finalParameters), ("costs", .list c.costs), ("parameters", .list c.parameters),
    ("status", .list c.status), ("storage_path", c.storagePath), ("file_name", c.fileName), ("append_time_to_path", c.appendTime),
    ("optimization_stats", .list c.statistics)]

/-- `DataContainer._from_dict`, data_container.py:284-286. -/
def Container.fromDict (h : Heap ρ) (d : List (String × Val ρ)) : Except PyErr (Container ρ × Heap ρ) := Container.new h d

/-- `copy.deepcopy` of a list of the container: a new list with copies of the entries (lists inside it are copied as well). -/
def copyList (h : Heap ρ) (a : Nat) : Nat × Heap ρ := (h.length, h ++ [get h a])

/-- `DataContainer.__deepcopy__(self)`, data_container.py:222-236, called with `n` further arguments: the method takes none.
Simplification: entries of the lists are opaque, so that only the seven lists themselves are copied here. -/
def Container.deepcopyMethod (c : Container ρ) (h : Heap ρ) (n : Nat) : Except PyErr (Container ρ × Heap ρ) :=
  match n with
  | 0 =>
    let (fc, h) := copyList h c.finalCosts
    let (ip, h) := copyList h c.initParameters
    let (fp, h) := copyList h c.finalParameters
    let (co, h) := copyList h c.costs
    let (pa, h) := copyList h c.parameters
    let (st, h) := copyList h c.status
    let (os, h) := copyList h c.statistics
    Container.new h [("final_costs", .list fc), ("indices", c.indices), ("init_parameters", .list ip), ("final_parameters", .list fp),
      ("costs", .list co), ("parameters", .list pa), ("status", .list st), ("storage_path", c.storagePath), ("file_name", c.fileName),
      ("optimization_stats", .list os), ("append_time_to_path", c.appendTime)]
  | _ => .error .typeError

/-- `copy.deepcopy(container)`: the copy module calls `__deepcopy__` with the memo dictionary as argument. -/
def Container.deepcopy (c : Container ρ) (h : Heap ρ) : Except PyErr (Container ρ × Heap ρ) := c.deepcopyMethod h 1

/-- The keyword arguments of `OptimizationResult.__init__`, optimization_data.py:108-119. -/
def resultKeys : List String :=
  ["final_cost", "indices", "final_parameters", "final_grad_norm", "init_parameters", "num_iter", "termination_reason", "status",
    "optimization_stats", "optimizer", "optim_summary"]

/-- A dictionary value of a result: a value or a summary. -/
abbrev RVal (ρ : Type) := Val ρ ⊕ Option (Val ρ × Val ρ)

/-- A keyword argument holding a value. -/
def valArg (kw : List (String × RVal ρ)) (key : String) (default : Val ρ) : Val ρ :=
  match kw.lookup key with
  | some (.inl v) => v
  | _ => default

/-- `OptimizationResult.__init__`, optimization_data.py:108-133, called with keyword arguments. -/
def Result.new (kw : List (String × RVal ρ)) : Except PyErr (Result ρ) :=
  if kw.all (fun p => resultKeys.contains p.1) then
    .ok { finalCost := valArg kw "final_cost" .none, indices := valArg kw "indices" .none,
          finalParameters := valArg kw "final_parameters" .none, finalGradNorm := valArg kw "final_grad_norm" .none,
          initParameters := valArg kw "init_parameters" .none, numIter := valArg kw "num_iter" .none,
          terminationReason := valArg kw "termination_reason" (.str "not started yet"), status := valArg kw "status" .none,
          optimizationStats := valArg kw "optimization_stats" .none, optimizer := valArg kw "optimizer" .none,
          optimSummary := match kw.lookup "optim_summary" with
            | some (.inr s) => s
            | _ => none }
  else .error .typeError

/-- `OptimizationResult.to_dict`, optimization_data.py:135-154: there is no key for `status`. -/
def Result.toDict (r : Result ρ) : List (String × RVal ρ) :=
  [("final_cost", .inl r.finalCost), ("indices", .inl r.indices), ("final_parameters", .inl r.finalParameters),
    ("final_grad_norm", .inl r.finalGradNorm), ("init_parameters", .inl r.initParameters), ("num_iter", .inl r.numIter),
    ("termination_reason", .inl r.terminationReason), ("optimizer", .inl r.optimizer),
    ("optimization_stats", .inl r.optimizationStats), ("optim_summary", .inr r.optimSummary)]

/-- `OptimizationResult.from_dict`, optimization_data.py:156-171. -/
def Result.fromDict (d : List (String × RVal ρ)) : Except PyErr (Result ρ) := Result.new d

end Verif.Data
