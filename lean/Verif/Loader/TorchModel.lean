/-!
# The iterator of PyTorch's multi process `DataLoader`

Source: /repo src/megatron/energon/savable_loader.py:612-900: `SavableDataLoader` is a `torch.utils.data.DataLoader` with
`persistent_workers=True`, `prefetch_factor=2` and `batch_size=None`; the sequence of samples is the one of
`_MultiProcessingDataLoaderIter` (torch/utils/data/dataloader.py; external code, not in /repo, modelled here from its documented
protocol: `_reset`, `_try_put_index`, `_next_data`, `_process_data`, and `_worker_loop` of torch/utils/data/_utils/worker.py).

The model is one epoch: from the creation (or `_reset`) of the iterator to `StopIteration`.

Simplifications. Tasks are numbered by their position in the worker cycle (`itertools.cycle(range(num_workers))`, whose
`q`-th element is worker `q % n`) instead of consecutively (`_send_idx`): only the order and the equality of task numbers matter. The pin
memory thread (which forwards results in order) is not modelled. Exceptions of workers and timeouts are not
modelled.
-/

namespace Verif.Loader

/-- An entry of `_task_info`: the task, and the data if it has been received already. -/
structure Task (α : Type) where
  pos : Nat
  data : Option α

/-- A worker process: its index queue, the number of answers given so far, and `iteration_end`. -/
structure WProc where
  queue : List Nat
  made : Nat
  ended : Bool

inductive Phase where
  /-- user code has control -/
  | idle
  /-- inside a call of `next` -/
  | busy
  /-- `StopIteration` was raised -/
  | finished
deriving DecidableEq

structure Sys (α : Type) where
  /-- position of the worker cycle -/
  cyc : Nat
  /-- `_task_info`, in order, beginning with task `_rcvd_idx` -/
  pending : List (Task α)
  /-- `_workers_status` -/
  active : Nat → Bool
  procs : Nat → WProc
  /-- the result queue: task and answer (`none`: `_IterableDatasetStopIteration`) -/
  results : List (Nat × Option α)
  phase : Phase
  /-- what `next` has returned so far: worker and data -/
  hist : List (Nat × α)

variable {α : Type}

/-- function update -/
def fset {β : Type} (f : Nat → β) (i : Nat) (b : β) : Nat → β := fun j => if j = i then b else f j

/-- `_try_put_index`: the next active worker in the cycle gets a task; nothing if there is none. -/
def tryPut (n : Nat) (s : Sys α) : Sys α :=
  match (List.range n).find? (fun j => s.active ((s.cyc + j) % n)) with
  | none => { s with cyc := s.cyc + n }
  | some j =>
    let q := s.cyc + j
    let w := q % n
    { s with
      cyc := q + 1
      pending := s.pending ++ [⟨q, none⟩]
      procs := fset s.procs w { s.procs w with queue := (s.procs w).queue ++ [q] } }

/-- `tryPut` `k` times -/
def tryPuts (n : Nat) : Nat → Sys α → Sys α
  | 0, s => s
  | k + 1, s => tryPuts n k (tryPut n s)

/-- `_reset`: all workers are active, and `prefetch_factor * num_workers` tasks are sent. -/
def start (α : Type) (n : Nat) : Sys α :=
  tryPuts n (2 * n)
    { cyc := 0, pending := [], active := fun _ => true, procs := fun _ => ⟨[], 0, false⟩, results := [],
      phase := .idle, hist := [] }

/-- `_next_data` / `_process_data`: task `q` is done with data `a`; a new task is sent and `a` is returned to the user. -/
def deliver (n : Nat) (s : Sys α) (q : Nat) (a : α) (rest : List (Task α)) : Sys α :=
  tryPut n { s with pending := rest, phase := .idle, hist := s.hist ++ [(q % n, a)] }

/-- Store data that has arrived too early. -/
def storeData (q : Nat) (a : α) (l : List (Task α)) : List (Task α) :=
  l.map fun t => if t.pos = q then { t with data := some a } else t

/-- One step of the whole system, for workers whose `k`-th answer is `out w k` (`none`: end of the iteration). Worker
processes run whenever they want; `next` runs whenever user code calls it. -/
inductive Step (n : Nat) (out : Nat → Nat → Option α) : Sys α → Sys α → Prop where
  /-- worker `w` takes a task from its index queue and answers it -/
  | work {s : Sys α} {w q : Nat} {l : List Nat} : w < n → (s.procs w).queue = q :: l → (s.procs w).ended = false →
      Step n out s
        { s with
          procs := fset s.procs w ⟨l, (s.procs w).made + 1, (out w (s.procs w).made).isNone⟩
          results := s.results ++ [(q, out w (s.procs w).made)] }
  /-- after the end of its iteration a worker drops tasks without answering -/
  | discard {s : Sys α} {w q : Nat} {l : List Nat} : w < n → (s.procs w).queue = q :: l → (s.procs w).ended = true →
      Step n out s { s with procs := fset s.procs w { s.procs w with queue := l } }
  /-- user code calls `next` -/
  | call {s : Sys α} : s.phase = .idle → Step n out s { s with phase := .busy }
  /-- the oldest task belongs to a worker that has ended and has no data: forget it -/
  | drop {s : Sys α} {q : Nat} {rest : List (Task α)} : s.phase = .busy → s.pending = ⟨q, none⟩ :: rest →
      s.active (q % n) = false → Step n out s { s with pending := rest }
  /-- no task is left: `StopIteration` -/
  | finish {s : Sys α} : s.phase = .busy → s.pending = [] → Step n out s { s with phase := .finished }
  /-- the data of the oldest task has arrived before -/
  | have {s : Sys α} {q : Nat} {a : α} {rest : List (Task α)} : s.phase = .busy → s.pending = ⟨q, some a⟩ :: rest →
      Step n out s (deliver n s q a rest)
  /-- waiting for the oldest task, the end of the iteration of a worker is received: mark it, send a task to another worker -/
  | recvStop {s : Sys α} {q r : Nat} {rest : List (Task α)} {res : List (Nat × Option α)} : s.phase = .busy →
      s.pending = ⟨q, none⟩ :: rest → s.active (q % n) = true → s.results = (r, none) :: res →
      Step n out s (tryPut n { s with results := res, active := fset s.active (r % n) false })
  /-- the data of the oldest task is received -/
  | recvNow {s : Sys α} {q : Nat} {a : α} {rest : List (Task α)} {res : List (Nat × Option α)} : s.phase = .busy →
      s.pending = ⟨q, none⟩ :: rest → s.active (q % n) = true → s.results = (q, some a) :: res →
      Step n out s (deliver n { s with results := res } q a rest)
  /-- the data of another task is received: store it -/
  | recvLater {s : Sys α} {q r : Nat} {a : α} {rest : List (Task α)} {res : List (Nat × Option α)} : s.phase = .busy →
      s.pending = ⟨q, none⟩ :: rest → s.active (q % n) = true → s.results = (r, some a) :: res → r ≠ q →
      Step n out s { s with results := res, pending := storeData r a s.pending }

/-- The states the system can get into. -/
inductive Reach (n : Nat) (out : Nat → Nat → Option α) : Sys α → Prop where
  | start : Reach n out (start α n)
  | step {s s' : Sys α} : Reach n out s → Step n out s s' → Reach n out s'

end Verif.Loader
