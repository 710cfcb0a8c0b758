import Verif.Stream.Spec
import Verif.Worker.Model
import Verif.Loader.TorchModel

/-!
# `SavableDatasetWrapper` and `SavableDataLoader`: saving the state of a loader with worker processes

Source: /repo src/megatron/energon/savable_loader.py.

The wrapped dataset `D` stands for the dataset of one logical worker together with the global random generators of the worker process,
which are saved and restored with it (`_save_state`, `_restore_state`). A state of a worker that has not been saved yet is `None`
in the code and `none` here; restoring it gives the initial dataset (`D.init`).
-/

namespace Verif.Loader

open Verif.Stream

/-- savable_loader.py:194-207 `SavableCheckpoint`; `data = none`: the initial state -/
structure Cp (κ : Type) where
  data : Option κ
  idx : Nat

/-- Parameters of a worker: `checkpoint_every_min_n_samples`, `n_checkpoints`, and whether the time condition of
`_store_checkpoint` (`checkpoint_every_sec`) holds at the time when the sample index is `i`. -/
structure Cfg where
  minN : Nat
  keep : Nat
  tick : Nat → Bool

/-- Control points of `SavableDatasetWrapper.__iter__`. -/
inductive WCtl where
  /-- a new generator -/
  | fresh
  /-- in the `for` loop, with the values of `last_was_skip` and `dataset_has_samples` -/
  | run (lastWasSkip hasSamples : Bool)

/-- Attributes of `SavableDatasetWrapper` in one worker process: `_sample_index`, `_skip_samples[worker_id]`,
`_last_checkpoints` (oldest first). -/
structure WAttr (κ : Type) where
  idx : Nat
  skip : Nat
  cps : List (Cp κ)
  ctl : WCtl

variable {σ κ C : Type}

/-- `_last_checkpoints[-1].sample_index` (the list is never empty) -/
def lastIdx (l : List (Cp κ)) : Nat := (l.getLast?.map (·.idx)).getD 0

/-- savable_loader.py:428-457 `_store_checkpoint`; `k` is the current state. -/
def store (cfg : Cfg) (force : Bool) (k : κ) (x : WAttr κ) : WAttr κ :=
  if force || (cfg.tick x.idx && decide (lastIdx x.cps + cfg.minN ≤ x.idx)) || decide (x.idx ≤ 1) then
    { x with
      cps :=
        if cfg.keep < x.cps.length + 1 then (x.cps ++ [(⟨some k, x.idx⟩ : Cp κ)]).tail
        else x.cps ++ [(⟨some k, x.idx⟩ : Cp κ)] }
  else x

/-- The key entries added by the wrapper (savable_loader.py:398-400). -/
def loaderKey (gid idx : Nat) : List Key := [.str "SavableDatasetWrapper", .num gid, .num idx]

/-- savable_loader.py:353-426 `__iter__` in a worker with global id `gid`. Yields the sample index and the sample (the
worker id, which is constant, is left out). The locking (a command of the main process is executed only when the generator is
suspended) is in the use of this function: commands see states between two calls of `next`. -/
def wstep (D : Dataset σ (Smp C) κ) (cfg : Cfg) (gid : Nat) : σ × WAttr κ → Stream.Step (σ × WAttr κ) (Nat × Smp C)
  | (s, x) =>
    match x.ctl with
    | .fresh => .skip (s, { x with ctl := .run true false })
    | .run lws has =>
      match D.step s with
      | .yield a s' =>
        if 0 < x.skip then .skip (s', { x with skip := x.skip - 1, idx := x.idx + 1, ctl := .run true true })
        else .yield (x.idx, a.addKey (loaderKey gid x.idx))
          (s', store cfg false (D.save s') { x with idx := x.idx + 1, ctl := .run false true })
      | .skip s' => .skip (s', x)
      | .stop s' =>
        if has && lws then .skip (s', { x with ctl := .run true false })
        else .stop (s', store cfg true (D.save s') { x with ctl := .fresh })
      | .raise => .raise

/-- savable_loader.py:264-301: a new wrapper. -/
def wfresh (D : Dataset σ (Smp C) κ) : σ × WAttr κ := (D.init, ⟨0, 0, [⟨none, 0⟩], .fresh⟩)

/-- savable_loader.py:211-220 `SavableDatasetCheckpoint` for one worker: dataset state, its sample index, offset. -/
structure WState (κ : Type) where
  data : Option κ
  idx : Nat
  offset : Nat

/-- savable_loader.py:515-534 `get_checkpoint`, given the last sample index the main process has got from this worker; `none`: `ValueError("No
checkpoint found")`. -/
def getCheckpoint (x : WAttr κ) (last : Nat) : Option (WState κ) :=
  (x.cps.reverse.find? (fun c => c.idx ≤ last + 1)).map fun c => ⟨c.data, c.idx, last + 1 - c.idx⟩

/-- `restore_state` of the dataset for one worker: `none` (never saved) gives the initial state. -/
def resumeOpt (D : Dataset σ (Smp C) κ) : Option κ → σ
  | some k => D.resume k
  | none => D.init

/-- savable_loader.py:548-573 `restore_checkpoint` in the main process, followed in the worker by `_restore_state`
(482-513; called at the beginning of `__iter__`, 371-374). -/
def wresume (D : Dataset σ (Smp C) κ) (k : WState κ) : σ × WAttr κ :=
  (resumeOpt D k.data,
    ⟨k.idx, k.offset, [⟨some (D.save (resumeOpt D k.data)), k.idx⟩], .fresh⟩)

/-- savable_loader.py:578-591 `restore_sample` of the wrapper. -/
def wrestoreSample (D : Dataset σ (Smp C) κ) : List Key → Option (Smp C)
  | .str "SavableDatasetWrapper" :: .num gid :: .num idx :: k => (D.restoreSample k).map (Smp.addKey (loaderKey gid idx))
  | _ => none

/-! ## The main process -/

/-- A sample as it arrives in the main process: logical worker id, sample index, sample. -/
structure Got (C : Type) where
  worker : Nat
  idx : Nat
  smp : Smp C

/-- `_worker_sample_counters` (savable_loader.py:744, 810: initially 0, then the last sample index of the worker), given what
`next` has returned since this loader was created. -/
def counter (hist : List (Got C)) (w : Nat) : Nat :=
  ((hist.filter (fun g => g.worker = w)).getLast?.map (·.idx)).getD 0

/-- `_next_worker_id` (savable_loader.py:702, 812), with `n` workers -/
def nextWorker (n : Nat) (hist : List (Got C)) : Nat :=
  (hist.getLast?.map fun g => (g.worker + 1) % n).getD 0

/-- savable_loader.py:601-609 `SavableDataLoaderState` -/
structure LState (κ : Type) where
  workers : Nat → WState κ
  next : Nat

/-- savable_loader.py:880-910 `save_state_rank` with `n > 0` workers, after iteration has begun: `ws w` are the attributes of
the wrapper in logical worker `w`. `none`: an exception. -/
def saveLoader (n : Nat) (ws : Nat → WAttr κ) (hist : List (Got C)) : Option (LState κ) :=
  if (List.range n).all (fun w => (getCheckpoint (ws w) (counter hist w)).isSome) then
    some ⟨fun w => (getCheckpoint (ws w) (counter hist w)).getD ⟨none, 0, 0⟩, nextWorker n hist⟩
  else none

/-- The worker that worker process `p` stands for in a loader restored with next worker `k` (worker.py:158-169,
savable_loader.py:355-356, 569), or in a new loader (`k = 0`). -/
def logical (n k p : Nat) : Nat := (Worker.rankWorkerId ⟨0, 1, n⟩ ⟨some (p, n), k, none⟩).getD 0

end Verif.Loader
