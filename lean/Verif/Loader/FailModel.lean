import Verif.Loader.TorchModel

/-!
# C116: exceptions in worker processes

Source: /repo src/megatron/energon/savable_loader.py:353-426 (`SavableDatasetWrapper.__iter__`, a generator), 773-863 (`SavableDataLoader.__iter__`), and torch, modelled from its documented
protocol as in `TorchModel.lean`: `_worker_loop` sends an `ExceptionWrapper` as the answer to the task during which the dataset raised; the generator is dead from then on, so that the next task is
answered with the end of the iteration. `_process_data` treats the wrapper as data, sends the next task, and then raises the exception out of `next`.

The user calls `next` again, or begins another loop: `SavableDataLoader` goes on with the same iterator (savable_loader.py:853-861), because it has not set `finished`.
-/

namespace Verif.Loader

variable {α E : Type}

/-- What the next step of a generator does -/
inductive Raw (α E : Type) where
  | sample (a : α)
  | stop
  | raise (e : E)

def Raw.isSample : Raw α E → Bool
  | .sample _ => true
  | _ => false

/-- The answer of a worker: data, an `ExceptionWrapper`, or the end of the iteration -/
def Raw.answer : Raw α E → Option (Except E α)
  | .sample a => some (.ok a)
  | .raise e => some (.error e)
  | .stop => none

/-- The answers of a worker whose dataset does `raw k` in step `k`: a generator is dead after it has raised (torch/utils/data/_utils/worker.py: `next` of the finished generator raises `StopIteration`,
the worker sends `_IterableDatasetStopIteration`) -/
def life (raw : Nat → Raw α E) (k : Nat) : Option (Except E α) :=
  if (List.range k).all fun j => (raw j).isSample then (raw k).answer else none

/-- A loader whose workers have the datasets `raw` -/
abbrev Fails (n : Nat) (raw : Nat → Nat → Raw α E) : Sys (Except E α) → Prop := Reach n fun w => life (raw w)

/-- What `SavableDataLoader` notes down: `_worker_sample_counters`, `_next_worker_id`, `_sample_idx` -/
structure Books where
  counter : Nat → Nat
  next : Nat
  idx : Nat

/-- savable_loader.py:807-839: one call of `next` that does not end the loop. The worker yields its number, the number of the sample, and the sample. An exception goes past all of it. -/
def Books.note (n : Nat) (b : Books) : Except E (Nat × Nat × α) → Books
  | .ok (w, i, _) => { counter := fset b.counter w i, next := (w + 1) % max n 1, idx := b.idx + 1 }
  | .error _ => b

/-- After the results `l` -/
def Books.after (n : Nat) (l : List (Except E (Nat × Nat × α))) : Books := l.foldl (Books.note n) ⟨fun _ => 0, 0, 0⟩

/-! ### Without worker processes -/

/-- The dataset of a worker, iterated over again and again: `gen r k` is what step `k` of the `r`-th iteration does. Where the iteration over all of them is after `j` steps, if each
iteration that is over is followed by another one. -/
def cursor (gen : Nat → Nat → Raw α E) : Nat → Nat × Nat
  | 0 => (0, 0)
  | j + 1 =>
    let c := cursor gen j
    match gen c.1 c.2 with
    | .sample _ => (c.1, c.2 + 1)
    | _ => (c.1 + 1, 0)

/-- savable_loader.py:862-863, 84-109: without worker processes each loop begins a new iteration over the dataset, whose state is kept. What step `j` does. -/
def goOn (gen : Nat → Nat → Raw α E) (j : Nat) : Raw α E := gen (cursor gen j).1 (cursor gen j).2

end Verif.Loader
