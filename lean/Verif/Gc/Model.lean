import Mathlib.Data.List.Basic

/-!
# C121: garbage collection during loading

Source: /repo src/megatron/energon/wrappers/gc_dataset.py (`GcDataset`, `gc_init_worker`, `GcFreezeError`).

A process with any number of `GcDataset`s and a heap of objects that only the cyclic garbage collector can free (the ones reference counting frees are not modelled). An object is a number. What the user, the inner datasets and everything else in the
process do is given by events (`alloc`, `drop`, `auto`, `freeze`, `unfreeze`).
-/

namespace Verif.Gc

/-- gc_dataset.py:79-96 the options of a `GcDataset` -/
structure Ds where
  every : Nat
  freeze : Bool
deriving DecidableEq

/-- A generator of `GcDataset.__iter__` after its first `next`: the local variables `iter` and `sample`; `yielded`: it stands at `yield`. -/
structure Run where
  iter : Nat
  last : List Nat
  yielded : Bool
deriving DecidableEq

/-- `heap`: objects in memory. `held`: referenced by the user, by inner datasets, ... `perm`: the permanent generation (`gc.freeze`). `fresh`: next new object. `runs`: for each `GcDataset` its running generator.
`worker`: `get_worker_info() is not None`; `init`: `_frozen_cuda_tensors_initialized`. -/
structure St where
  heap : List Nat
  held : List Nat
  perm : List Nat
  fresh : Nat
  runs : List (Option Run)
  worker : Bool
  init : Bool
deriving DecidableEq

/-- What the local variables `sample` of the generators refer to. -/
def frames (rs : List (Option Run)) : List Nat := rs.flatMap fun r => match r with
  | some r => r.last
  | none => []

/-- `gc.collect()`: frees what nothing refers to, without the permanent generation. -/
def collect (s : St) : St := { s with heap := s.heap.filter fun o => o ∈ s.held ∨ o ∈ frames s.runs ∨ o ∈ s.perm }

/-- `gc.freeze()`: moves everything that is tracked to the permanent generation. -/
def gcFreeze (s : St) : St := { s with perm := s.heap }

/-- `gc.unfreeze()`: moves the permanent generation back. -/
def gcUnfreeze (s : St) : St := { s with perm := [] }

inductive Ev where
  /-- something in the process creates an object (and refers to it) -/
  | alloc
  /-- nothing but the generators refers to the object any more -/
  | drop (o : Nat)
  /-- the automatic garbage collection of Python frees an object -/
  | auto (o : Nat)
  /-- `gc.freeze()`, `gc.unfreeze()` by the user -/
  | freeze
  | unfreeze
  /-- `gc_init_worker` -/
  | init
  /-- the first `next` of a new generator of dataset `g` -/
  | start (g : Nat)
  /-- the inner dataset has returned a sample (the object `o`): it is yielded -/
  | deliver (g o : Nat)
  /-- `next` after a `yield`: up to the `next` of the inner dataset -/
  | resume (g : Nat)
  /-- the inner dataset ends or raises, or the generator is closed -/
  | finish (g : Nat)
deriving DecidableEq

/-- gc_dataset.py:102-107 `__iter__` up to the loop. In a worker without `gc_init_worker`: `GcFreezeError`. -/
def start (d : Ds) (g : Nat) (s : St) : St :=
  if s.worker && !s.init then s
  else
    let s1 := if d.freeze then gcFreeze (collect s) else s
    { s1 with runs := s1.runs.set g (some ⟨0, [], false⟩) }

/-- gc_dataset.py:112-115 after the `yield`; the local variable `sample` still refers to the sample. -/
def resume (d : Ds) (g : Nat) (r : Run) (s : St) : St :=
  if d.every ≤ r.iter + 1 then collect { s with runs := s.runs.set g (some ⟨0, r.last, false⟩) }
  else { s with runs := s.runs.set g (some ⟨r.iter + 1, r.last, false⟩) }

/-- gc_dataset.py:116-118 `finally`; the generator is gone. -/
def finish (d : Ds) (g : Nat) (s : St) : St :=
  let s1 := { s with runs := s.runs.set g none }
  if d.freeze then gcUnfreeze s1 else s1

/-- One event; `none`: it is not possible. -/
def step (D : Nat → Ds) (s : St) : Ev → Option St
  | .alloc => some { s with heap := s.fresh :: s.heap, held := s.fresh :: s.held, fresh := s.fresh + 1 }
  | .drop o => some { s with held := s.held.filter (· ≠ o) }
  | .auto o => if o ∈ s.held ∨ o ∈ frames s.runs ∨ o ∈ s.perm then none else some { s with heap := s.heap.filter (· ≠ o) }
  | .freeze => some (gcFreeze s)
  | .unfreeze => some (gcUnfreeze s)
  | .init => some { s with init := true }
  | .start g => match s.runs[g]? with
    | some none => some (start (D g) g s)
    | _ => none
  | .deliver g o => match s.runs[g]? with
    | some (some ⟨i, _, false⟩) => if o ∈ s.held then some { s with runs := s.runs.set g (some ⟨i, [o], true⟩) } else none
    | _ => none
  | .resume g => match s.runs[g]? with
    | some (some ⟨i, l, true⟩) => some (resume (D g) g ⟨i, l, true⟩ s)
    | _ => none
  | .finish g => match s.runs[g]? with
    | some (some _) => some (finish (D g) g s)
    | _ => none

def run (D : Nat → Ds) : St → List Ev → Option St
  | s, [] => some s
  | s, e :: es => match step D s e with
    | some s' => run D s' es
    | none => none

/-- A new process with `m` datasets -/
def St.new (m : Nat) (worker : Bool) : St := ⟨[], [], [], 0, List.replicate m none, worker, false⟩

end Verif.Gc
