import Verif.Stream.Model

/-!
# `WebdatasetSampleLoaderDataset`

Source: /repo src/megatron/energon/flavors/webdataset/sample_loader.py.

One worker (states are kept per worker). What is read from a slice is given by the list `samples` (the reader of single slices,
`_read_multicolumn_shard`, is in `Verif.Wds.ReaderModel`); the position of an open slice is the number of samples read from it
(`ShardState.offset`, `byte_offset`). Logging is not modelled, nor are I/O errors.
-/

namespace Verif.Wds

open Verif.Stream

/-- A slice of a shard (or of several shards, column-wise, with the same samples): structs.py:25-37 `ShardInfo`. `id` is the key
(name, offset) by which slices are found again (sample_loader.py:182-188 `shards_by_key`), `count` the number of samples
according to the index, `samples` what the reader yields (fewer than `count` if samples are excluded). -/
structure Slice (C : Type) where
  id : String × Nat
  count : Nat
  samples : List (Smp C)

/-- rng.py:48-117 `WorkerRng` with the two further operations used here. `choice g ws`: `torch.multinomial(ws, 1)` returns an index
whose probability is not 0 (if there is one); `perm g n`: `torch.randperm(n)`. -/
structure WRng (ρ : Type) where
  seed : ρ
  below : ρ → Nat → Nat × ρ
  below_lt : ∀ g n, 0 < n → (below g n).1 < n
  choice : ρ → List Nat → Nat × ρ
  choice_pos : ∀ g ws, (∃ w ∈ ws, w ≠ 0) → ∃ w, ws[(choice g ws).1]? = some w ∧ w ≠ 0
  perm : ρ → Nat → List Nat × ρ
  perm_perm : ∀ g n, (perm g n).1.Perm (List.range n)

variable {C ρ : Type}

/-- rng.py:83-87 `choice_idx`: with one entry no random number is used. -/
def WRng.choiceIdx (R : WRng ρ) (g : ρ) (ws : List Nat) : Nat × ρ := if ws.length = 1 then (0, g) else R.choice g ws

/-- rng.py:95-98 `shuffle`: `[l[p[i]] for i in range(len(l))]` -/
def WRng.shuffle {α : Type} (R : WRng ρ) (g : ρ) (l : List α) : List α × ρ :=
  ((R.perm g l.length).1.filterMap (fun i => l[i]?), (R.perm g l.length).2)

/-- `shuffle_over_epochs`: `None`, `n >= 1`, or `-1` (with replacement). -/
inductive Mode where
  | none
  | over (n : Nat)
  | replace

/-- Parameters of the dataset for one worker. -/
structure Cfg (C : Type) where
  shards : List (Slice C)
  mode : Mode
  parallel : Nat
  loop : Bool

/-- Draw `k` shards with replacement (sample_loader.py:276-279; `torch.randint(0, 0)` raises, the model drops such entries: there is
always a shard, line 541). -/
def drawN (R : WRng ρ) (shards : List (Slice C)) : Nat → ρ → List (Slice C) × ρ
  | 0, g => ([], g)
  | k + 1, g =>
    let (i, g) := R.below g shards.length
    let (l, g) := drawN R shards k g
    (shards[i]?.toList ++ l, g)

/-- `shards * n` -/
def timesL {α : Type} (n : Nat) (l : List α) : List α := (List.replicate n l).flatten

/-- sample_loader.py:267-284 `_shards_once` -/
def shardsOnce (R : WRng ρ) (c : Cfg C) (g : ρ) : List (Slice C) × ρ :=
  match c.mode with
  | .none => (c.shards, g)
  | .replace => drawN R c.shards c.parallel g
  | .over n => R.shuffle g (timesL n c.shards)

/-- An entry of `active_shards`: the slice and the number of samples read. -/
abbrev Active (C : Type) := Option (Slice C × Nat)

/-- sample_loader.py:309, 325, 396: `shards_probs`; always the counts of the active shards, 0 for `None`. -/
def weight : Active C → Nat
  | none => 0
  | some a => a.1.count

inductive Ctl where
  /-- a new generator -/
  | fresh
  /-- at the top of the outer `while True` -/
  | top
  /-- at the top of the inner `while True` -/
  | pick
deriving DecidableEq

/-- Attributes (for this worker): `_pending_shards` (the next one last), `_active_shards_state`, the generator of random numbers, the
counters, and the control point. -/
structure LdX (C ρ : Type) where
  pending : List (Slice C)
  active : List (Active C)
  rng : ρ
  count : Nat
  epoch : Nat
  epochCount : Nat
  ctl : Ctl

/-- sample_loader.py:388-403: fill up the shard iterators, taking shards from the end of the order. `k` is the number of
iterators still to be opened. -/
def fill : Nat → List (Slice C) → List (Active C) × List (Slice C)
  | 0, order => ([], order)
  | k + 1, order =>
    match order.getLast? with
    | none => (List.replicate (k + 1) none, order)
    | some s => (some (s, 0) :: (fill k order.dropLast).1, (fill k order.dropLast).2)

/-- sample_loader.py:369-405: a new epoch -/
def newEpoch (R : WRng ρ) (c : Cfg C) (x : LdX C ρ) : LdX C ρ :=
  let (order, g) := shardsOnce R c x.rng
  let (act, pend) := fill c.parallel order.reverse
  { x with active := act, pending := pend, rng := g, ctl := .pick }

/-- sample_loader.py:427-452: iterator `i` is exhausted. -/
def exhausted (R : WRng ρ) (c : Cfg C) (x : LdX C ρ) (i : Nat) (g : ρ) : LdX C ρ :=
  match x.pending.getLast? with
  | some s => { x with pending := x.pending.dropLast, active := x.active.set i (some (s, 0)), rng := g }
  | none =>
    match c.mode with
    | .replace =>
      let (j, g) := R.below g c.shards.length
      { x with active := x.active.set i (c.shards[j]?.map fun s => (s, 0)), rng := g }
    | _ => { x with active := x.active.set i none, rng := g }

/-- sample_loader.py:416-424: the iterator to be used next and the random generator afterwards. Line 419 asserts
`parallel_shard_iters == 1` without shuffling. -/
def pickIdx (R : WRng ρ) (c : Cfg C) (x : LdX C ρ) : Nat × ρ :=
  match c.mode with
  | .none => (0, x.rng)
  | _ => R.choiceIdx x.rng (x.active.map weight)

/-- sample_loader.py:286-508 `_shards_iter`, 520-544 `__iter__` -/
def ldStep (R : WRng ρ) (c : Cfg C) (x : LdX C ρ) : Step (LdX C ρ) (Smp C) :=
  match x.ctl with
  | .fresh => if c.shards.isEmpty then .stop x else .skip { x with ctl := .top }
  | .top =>
    if x.active.any Option.isSome || !x.pending.isEmpty then .skip { x with ctl := .pick }
    else .skip (newEpoch R c x)
  | .pick =>
    if (x.active.map weight).all (· = 0) then
      -- lines 496-508
      let x := { x with epoch := x.epoch + 1, epochCount := 0 }
      if c.loop then .skip { x with ctl := .top } else .stop { x with ctl := .fresh }
    else
      let (i, g) := pickIdx R c x
      match x.active[i]? with
      | some (some (s, pos)) =>
        match s.samples[pos]? with
        | some a =>
          .yield a { x with
            active := x.active.set i (some (s, pos + 1)), rng := g
            count := x.count + 1, epochCount := x.epochCount + 1 }
        | none => .skip (exhausted R c x i g)
      | _ => .raise

/-- sample_loader.py:39-57 `SampleLoaderState`; slices are saved by their key and looked up again
(669-686 `_restore_find_shard`; that the other fields still agree is checked there and not modelled). -/
structure LdState (ρ : Type) where
  rng : ρ
  pending : List (String × Nat)
  active : List (Option ((String × Nat) × Nat))
  count : Nat
  epoch : Nat
  epochCount : Nat

/-- sample_loader.py:586-653 `save_state` -/
def ldSave (x : LdX C ρ) : LdState ρ :=
  ⟨x.rng, x.pending.map (·.id), x.active.map (Option.map fun a => (a.1.id, a.2)), x.count, x.epoch, x.epochCount⟩

/-- `shards_by_key[(name, offset)]`: a dict, the last slice with this key wins -/
def findSlice (shards : List (Slice C)) (k : String × Nat) : Option (Slice C) := (shards.filter (fun s => s.id = k)).getLast?

/-- sample_loader.py:701-754 `restore_state` of a saved state, for one worker (a `KeyError` for an unknown slice: the model drops
the entry). -/
def ldResume (c : Cfg C) (k : LdState ρ) : LdX C ρ :=
  { pending := k.pending.filterMap (findSlice c.shards)
    active := k.active.map fun o => o.bind fun a => (findSlice c.shards a.1).map fun s => (s, a.2)
    rng := k.rng, count := k.count, epoch := k.epoch, epochCount := k.epochCount, ctl := .fresh }

/-- sample_loader.py:168-175: the initial state -/
def ldInit (R : WRng ρ) (c : Cfg C) : LdX C ρ := ⟨[], List.replicate c.parallel none, R.seed, 0, 0, 0, .fresh⟩

/-- sample_loader.py:78-784 `WebdatasetSampleLoaderDataset`; `restore` is its `restore_sample` (554-584, see
`Verif.Wds.ReaderModel`). `reset`: `restore_state(None)`, which keeps a live random generator (rng.py:111-113).
`hasSamples`: 515-518. -/
def loaderD (R : WRng ρ) (c : Cfg C) (restore : List Key → Option (Smp C)) : Dataset (LdX C ρ) (Smp C) (LdState ρ) :=
  { init := ldInit R c
    step := ldStep R c
    save := ldSave
    resume := ldResume c
    reset := fun x => { ldInit R c with rng := x.rng }
    restoreSample := restore
    hasSamples := c.shards.any (fun s => decide (0 < s.count)) }

end Verif.Wds
