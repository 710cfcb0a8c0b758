/-!
# The commands of the main process to the worker processes

Source: /repo src/megatron/energon/savable_loader.py:307-338 `_command_thread`, 353-426 `SavableDatasetWrapper.__iter__` (the locking), 865-878
`_worker_command`, 880-910 `save_state_rank`; and of the worker loop and the main process of torch's `DataLoader` the requests for
samples: with prefetch factor 2, each worker process has two requests at the beginning, and gets another one whenever a sample of it is
taken.

In each worker process there are two threads, one running the generator, and the command thread. Every step below is one atomic step
of one of the threads; the steps of all threads of all processes are interleaved in any order. Simplifications: one iteration (the generators are not
started again after their end); fetching a sample, and executing a command, is one step each (so it is assumed to end); the command thread is never
stopped; a worker process does not die.
-/

namespace Verif.Loader.Cmd

/-- Where the generator is -/
inductive Gen where
  /-- its body has not begun -/
  | fresh
  /-- savable_loader.py:353-370: the command thread is started, the lock is not acquired yet -/
  | starting
  /-- 371-418, holding the lock: fetching a sample -/
  | locked
  /-- 403-409: at the `yield`, the lock is released -/
  | suspended
  /-- 420-424: the loop and the `with` statement are left (the lock is released), the final checkpoint is not stored yet -/
  | finishing
  | ended
deriving DecidableEq

/-- Where the command thread is; the number is that of the call (of `_worker_command`) whose command it has -/
inductive Thr where
  | none
  /-- 314-318 -/
  | waiting
  /-- 320: waiting for the lock -/
  | got (c : Nat)
  /-- 320-333: holding the lock -/
  | holding (c : Nat)
deriving DecidableEq

/-- An answer: the number of the call, the attributes the command saw, and (for the specification only) where the generator was then -/
structure Answer (S : Type) where
  call : Nat
  gen : Gen
  attr : S

/-- A worker process. `made`: the number of samples produced, `taken`: how many of them the main process has taken -/
structure Proc (S : Type) where
  gen : Gen
  attr : S
  /-- requests for samples not answered yet -/
  tasks : Nat
  made : Nat
  taken : Nat
  /-- the command queue -/
  cmds : List Nat
  thr : Thr
  /-- the result queue -/
  results : List (Answer S)

/-- The code of one worker as far as it changes the attributes: what is done first when the lock is held for the first time (372-374, restoring),
fetching a sample (`false`: the dataset has ended), and the final checkpoint (425-426). -/
structure Code (S : Type) where
  init : S
  restore : S → S
  fetch : S → S × Bool
  final : S → S

variable {S : Type}

/-- A step of one of the threads of a worker process -/
inductive PStep (P : Code S) : Proc S → Proc S → Prop where
  /-- the first request: 353-369 -/
  | start {p} (h : p.gen = .fresh) (ht : 0 < p.tasks) :
      PStep P p { p with gen := .starting, thr := match p.thr with | .none => .waiting | t => t }
  /-- 371-374 -/
  | lock {p} (h : p.gen = .starting) (hl : ∀ c, p.thr ≠ .holding c) : PStep P p { p with gen := .locked, attr := P.restore p.attr }
  /-- 378-404: a sample; the lock is released -/
  | yields {p a} (h : p.gen = .locked) (hf : P.fetch p.attr = (a, true)) :
      PStep P p { p with gen := .suspended, attr := a, tasks := p.tasks - 1, made := p.made + 1 }
  /-- 409-415: the next request; the lock is acquired -/
  | resume {p} (h : p.gen = .suspended) (ht : 0 < p.tasks) (hl : ∀ c, p.thr ≠ .holding c) : PStep P p { p with gen := .locked }
  /-- 416-423: the dataset has ended; the lock is released -/
  | ends {p a} (h : p.gen = .locked) (hf : P.fetch p.attr = (a, false)) :
      PStep P p { p with gen := .finishing, attr := a, tasks := p.tasks - 1 }
  /-- 425-426 -/
  | close {p} (h : p.gen = .finishing) : PStep P p { p with gen := .ended, attr := P.final p.attr }
  /-- torch: further requests are ignored -/
  | drop {p} (h : p.gen = .ended) (ht : 0 < p.tasks) : PStep P p { p with tasks := p.tasks - 1 }
  /-- 316 -/
  | take {p c l} (h : p.thr = .waiting) (hc : p.cmds = c :: l) : PStep P p { p with thr := .got c, cmds := l }
  /-- 320 -/
  | acquire {p c} (h : p.thr = .got c) (hl : p.gen ≠ .locked) : PStep P p { p with thr := .holding c }
  /-- 321-333 -/
  | answer {p c} (h : p.thr = .holding c) : PStep P p { p with thr := .waiting, results := p.results ++ [⟨c, p.gen, p.attr⟩] }

/-- What the main process does; `calls` is the number of calls begun so far. -/
inductive Main (S : Type) where
  /-- outside of `_worker_command`, with the answers of the last call -/
  | idle (last : Option (List (Answer S)))
  /-- 868-869: the commands for the workers before `k` are sent -/
  | sending (k : Nat)
  /-- 872: the answers so far -/
  | getting (rs : List (Answer S))

structure Sys (S : Type) where
  main : Main S
  calls : Nat
  procs : Nat → Proc S

def Sys.set (s : Sys S) (w : Nat) (p : Proc S) : Sys S := { s with procs := fun v => if v = w then p else s.procs v }

/-- A step of the system with `n` worker processes -/
inductive Step (n : Nat) (P : Nat → Code S) : Sys S → Sys S → Prop where
  | work {s w p} (hw : w < n) (h : PStep (P w) (s.procs w) p) : Step n P s (s.set w p)
  /-- `next` of the loader takes a sample of worker `w`, and there is a new request -/
  | recv {s last w} (hm : s.main = .idle last) (hw : w < n) (h : (s.procs w).taken < (s.procs w).made) :
      Step n P s (s.set w { s.procs w with taken := (s.procs w).taken + 1, tasks := (s.procs w).tasks + 1 })
  | call {s last} (hm : s.main = .idle last) : Step n P s { s with main := .sending 0, calls := s.calls + 1 }
  /-- 868-869 -/
  | send {s k} (hm : s.main = .sending k) (hk : k < n) :
      Step n P s { s.set k { s.procs k with cmds := (s.procs k).cmds ++ [s.calls] } with main := .sending (k + 1) }
  | sent {s} (hm : s.main = .sending n) : Step n P s { s with main := .getting [] }
  /-- 872: the answers are taken from one queue after the other. -/
  | get {s rs r l} (hm : s.main = .getting rs) (hk : rs.length < n) (hr : (s.procs rs.length).results = r :: l) :
      Step n P s { s.set rs.length { s.procs rs.length with results := l } with main := .getting (rs ++ [r]) }
  /-- 873-878: all answers are there -/
  | ret {s rs} (hm : s.main = .getting rs) (hk : rs.length = n) : Step n P s { s with main := .idle (some rs) }

/-- The iteration has begun: two requests for each worker -/
def start (P : Nat → Code S) : Sys S :=
  ⟨.idle none, 0, fun w => ⟨.fresh, (P w).init, 2, 0, 0, [], .none, []⟩⟩

inductive Reach (n : Nat) (P : Nat → Code S) : Sys S → Prop where
  | start : Reach n P (start P)
  | step {s t} (h : Reach n P s) (hs : Step n P s t) : Reach n P t

end Verif.Loader.Cmd
