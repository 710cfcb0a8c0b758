/-!
# WorkerConfig: worker ids, sample indices, index scopes

Source: /repo src/megatron/energon/worker.py, wrappers/base.py:126-200 (`SampleIndex`).
-/

namespace Verif.Worker

/-- worker.py:22-75 `WorkerConfig` of one rank. -/
structure Config where
  rank : Nat
  worldSize : Nat
  numWorkers : Nat
deriving DecidableEq, Repr

/-- What `rank_worker_id` reads from the process it runs in: `torch.utils.data.get_worker_info()` (the id of the
worker process and the number of worker processes), the class variable `worker_id_offset`, and
`_worker_override_global_rank`. -/
structure Proc where
  info : Option (Nat × Nat)
  offset : Nat := 0
  override : Option Nat := none
deriving DecidableEq, Repr

/-- worker.py:158-169 `rank_worker_id`; `none` = an assertion fails, or a division by zero. (`if self._worker_override_global_rank:` is
false for `None` and for 0.) -/
def rankWorkerId (c : Config) (p : Proc) : Option Nat :=
  match p.override with
  | some (g + 1) => if p.offset = 0 ∧ c.numWorkers ≠ 0 then some ((g + 1) % c.numWorkers) else none
  | _ =>
    match p.info with
    | none => some p.offset
    | some (id, n) => if n = c.numWorkers then some ((id + n - p.offset) % n) else none

/-- worker.py:171-182 `assert_worker`: whether all assertions hold. -/
def assertWorker (c : Config) (p : Proc) : Bool :=
  if c.numWorkers ≤ 1 then rankWorkerId c p == some 0
  else
    match p.info with
    | none => false
    | some (_, n) => n == c.numWorkers

/-- worker.py:184-200 `global_worker_id()` (without local override); `none` = an assertion fails. -/
def globalWorkerId (c : Config) (p : Proc) : Option Nat :=
  match p.override with
  | some g => some g
  | none => if assertWorker c p then (rankWorkerId c p).map (c.rank * c.numWorkers + ·) else none

/-- worker.py:108-124 `active_worker_sample_index` / `active_worker_batch_index`, for the index `i` on the top / at the bottom of
the stack, in the worker with id `w`. -/
def exposedIndex (c : Config) (w i : Nat) : Nat := i * max c.numWorkers 1 + w

/-- The process global variables: `_sample_index_stack` (`none`: no active worker config), and the counters of all
`SampleIndex` objects (of this worker). -/
structure Glob where
  stack : Option (List Nat)
  counters : Nat → Nat

inductive Exc where
  /-- an exception of user code -/
  | user
  /-- a failing `assert` of the index bookkeeping -/
  | assertion
deriving DecidableEq, Repr

/-- What happens during a `next` call of a pipeline, as far as the index scopes are concerned. -/
inductive Prog where
  /-- user code looks at the stack -/
  | look
  /-- user code raises -/
  | raise
  | seq (p q : Prog)
  /-- `with self._sample_index.ctx(): p` for the `SampleIndex` object `o` -/
  | fresh (o : Nat) (p : Prog)
  /-- `with self._sample_index.ctx(i): p` -/
  | fixed (i : Nat) (p : Prog)
  /-- `try: p except Exception: q` (`SkipSample`, error handlers) -/
  | attempt (p q : Prog)

/-- The result of running: whether an exception is on its way, what user code has seen (in order), and the state. -/
structure Res where
  exc : Option Exc
  seen : List (List Nat)
  glob : Glob

/-- worker.py:85-89 `worker_push_sample_index`; `none` = assertion -/
def push (g : Glob) (i : Nat) : Option Glob :=
  match g.stack with
  | some st => some { g with stack := some (st ++ [i]) }
  | none => none

/-- worker.py:91-95 `worker_pop_sample_index`; `none` = assertion or `IndexError` -/
def pop (g : Glob) : Option (Nat × Glob) :=
  match g.stack with
  | some st =>
    match st.getLast? with
    | some i => some (i, { g with stack := some st.dropLast })
    | none => none
  | none => none

/-- wrappers/base.py:156-170 `SampleIndex.ctx` after the index is known: push; body; finally pop and compare. -/
def scope (i : Nat) (body : Glob → Res) (g : Glob) : Res :=
  match push g i with
  | none => ⟨some .assertion, [], g⟩
  | some g1 =>
    let r := body g1
    match pop r.glob with
    | none => ⟨some .assertion, r.seen, r.glob⟩
    | some (j, g2) => if j = i then ⟨r.exc, r.seen, g2⟩ else ⟨some .assertion, r.seen, g2⟩

/-- Running a program with the global stack, as the code does. wrappers/base.py:156-170: `ctx()` takes the next index of its
object (`get_next`), `ctx(i)` the given one. `except Exception` also catches assertion errors. -/
def run : Prog → Glob → Res
  | .look, g => ⟨none, [g.stack.getD []], g⟩
  | .raise, g => ⟨some .user, [], g⟩
  | .seq p q, g =>
    let r := run p g
    match r.exc with
    | some e => ⟨some e, r.seen, r.glob⟩
    | none =>
      let r' := run q r.glob
      ⟨r'.exc, r.seen ++ r'.seen, r'.glob⟩
  | .fresh o p, g =>
    let i := g.counters o
    scope i (run p) { g with counters := fun o' => if o' = o then i + 1 else g.counters o' }
  | .fixed i p, g => scope i (run p) g
  | .attempt p q, g =>
    let r := run p g
    match r.exc with
    | none => r
    | some _ =>
      let r' := run q r.glob
      ⟨r'.exc, r.seen ++ r'.seen, r'.glob⟩

/-- worker.py:77-83 `worker_activate`; `none` = assertion -/
def activate (g : Glob) (i : Nat) : Option Glob :=
  match g.stack with
  | none => some { g with stack := some [i] }
  | some _ => none

/-- worker.py:97-106 `worker_deactivate`; `none` = assertion -/
def deactivate (g : Glob) : Option Glob :=
  match g.stack with
  | none => some g
  | some st => if st.length = 1 then some { g with stack := none } else none

/-- savable_loader.py:369-411, 91-116: around each `next` on the dataset: `worker_activate(index)`, `next`, `worker_deactivate()` (also if it
raises). -/
def nextCall (i : Nat) (p : Prog) (g : Glob) : Res :=
  match activate g i with
  | none => ⟨some .assertion, [], g⟩
  | some g1 =>
    let r := run p g1
    match deactivate r.glob with
    | none => ⟨some .assertion, r.seen, r.glob⟩
    | some g2 => ⟨r.exc, r.seen, g2⟩

end Verif.Worker
