import Verif.Worker.Model

/-!
# `@stateless(restore_seeds=True)`

Source: /repo src/megatron/energon/task_encoder/base.py:107-211, rng.py:149-184 (`SystemRng`), worker.py:205-229 (`worker_seed`).

`G` is the state of the three global random generators together (torch, numpy, random; `SystemRng.save_state` / `restore_state` read and
write all of it). A user function is any function of its argument, the sample index and the state of the generators: it returns a value or
raises (both are values of `R`), and leaves the generators in some state. A generator function yields by and by; code of others runs in
between.

Not modelled: a `TypeError` for a wrong number of arguments (raised at line 152, between seeding and `try`).
-/

namespace Verif.Task

open Verif.Worker (Config Proc)

/-- What a generator does at `next`: it yields a value and waits in a new state, or ends (returns or raises: a value of `R`). -/
inductive Turn (R L : Type) where
  | yield (r : R) (l : L)
  | done (r : R)

/-- The user functions: `plain` is an ordinary function, `start` and `turn` are a generator function; `L` are the states of its body. -/
structure UserFns (G A R L : Type) where
  plain : A → Nat → G → R × G
  start : A → Nat → L
  turn : L → G → Turn R L × G

/-- A generator object made by `seed_wrapper_generator`: line 137-184. -/
inductive GenObj (G L : Type) where
  /-- not started: the arguments are stored, no code has run -/
  | fresh
  /-- waiting at `yield sample`: the inner generator, `inner_rand_state` -/
  | waiting (l : L) (inner : G)
  /-- finished -/
  | ended

/-- The process: the variable `worker_seed` of the closure (one for each decorated function), the global random generators, the
generator objects. -/
structure World (G L : Type) where
  cached : Option Nat
  rng : G
  gens : Nat → GenObj G L

variable {G A R L : Type}

/-- rng.py:181-183 `SystemRng.seed_args(worker_seed, sample_index)`: `seedArgs` is any function of the two. -/
abbrev SeedArgs (G : Type) := Nat → Nat → G

/-- Lines 186-201 `seed_wrapper`. `ws` is `WorkerConfig.active_worker_config.worker_seed()`, `i` is `self.current_sample_index`. -/
def callPlain (F : UserFns G A R L) (S : SeedArgs G) (ws i : Nat) (a : A) (w : World G L) : R × World G L :=
  let seed := w.cached.getD ws
  let outer := w.rng
  let res := F.plain a i (S seed i)
  (res.1, { w with cached := some seed, rng := outer })

/-- What `next` on a generator object gives: a value, its end with a value (return or exception), or nothing if it has ended before. -/
inductive Got (R : Type) where
  | yielded (r : R)
  | ended (r : R)
  | exhausted
deriving DecidableEq

/-- Lines 137-184 `seed_wrapper_generator`: one `next` on the `k`-th object; the argument `a` was given when it was made. The loop is
entered with the seeded state the first time, and with `inner_rand_state` later; `finally` restores the state of the caller, saved at the
start (line 145) or after the last `yield` (line 184, i.e. when it is resumed). -/
def callGen (F : UserFns G A R L) (S : SeedArgs G) (ws i : Nat) (k : Nat) (a : A) (w : World G L) : Got R × World G L :=
  let run (cached : Option Nat) (l : L) (g : G) : Got R × World G L :=
    let outer := w.rng
    match F.turn l g with
    | (.yield r l', inner) =>
      (.yielded r, { cached := cached, rng := outer, gens := fun j => if j = k then .waiting l' inner else w.gens j })
    | (.done r, _) =>
      (.ended r, { cached := cached, rng := outer, gens := fun j => if j = k then .ended else w.gens j })
  match w.gens k with
  | .fresh =>
    let seed := w.cached.getD ws
    run (some seed) (F.start a i) (S seed i)
  | .waiting l inner => run w.cached l inner
  | .ended => (.exhausted, w)

/-- What happens in a process, in order. -/
inductive Ev (G A : Type) where
  /-- other code uses or changes the global random generators -/
  | other (f : G → G)
  /-- the decorated ordinary function is called while the active worker config has the seed `ws`, for the sample index `i` -/
  | call (ws i : Nat) (a : A)
  /-- `next` on a generator object -/
  | next (ws i : Nat) (k : Nat) (a : A)

/-- What is observed at an event -/
inductive Ob (R : Type) where
  | none
  | result (r : R)
  | got (g : Got R)
deriving DecidableEq

def step (F : UserFns G A R L) (S : SeedArgs G) (w : World G L) : Ev G A → Ob R × World G L
  | .other f => (.none, { w with rng := f w.rng })
  | .call ws i a => let r := callPlain F S ws i a w; (.result r.1, r.2)
  | .next ws i k a => let r := callGen F S ws i k a w; (.got r.1, r.2)

/-- A process from its start: the events with what was observed at them, in order, and the state after them. -/
def run (F : UserFns G A R L) (S : SeedArgs G) : List (Ev G A) → World G L → List (Ev G A × Ob R) × World G L
  | [], w => ([], w)
  | e :: l, w =>
    let r := step F S w e
    let rest := run F S l r.2
    ((e, r.1) :: rest.1, rest.2)

/-- A new process: nothing cached, no generator started. -/
def World.new (g : G) : World G L := ⟨none, g, fun _ => .fresh⟩

/-- worker.py:202-223 `worker_seed()`; `h` is the SHA-1 hash of worker id and seed offset. With `num_workers = 0` the rank of this process is used
(also if a sample of another rank is restored). -/
def workerSeed (h : Nat → Nat → Nat) (offset : Nat) (c : Config) (p : Proc) : Option Nat :=
  if c.numWorkers = 0 then some (h c.rank offset) else (Verif.Worker.globalWorkerId c p).map (h · offset)

end Verif.Task
