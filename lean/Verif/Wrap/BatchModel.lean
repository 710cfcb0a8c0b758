import Verif.Stream.Model

/-!
# BatchDataset (with a plain batcher function)

Source: /repo src/megatron/energon/wrappers/batch_dataset.py.

Batchers that are generator functions: see `BatchGenModel`.
-/

namespace Verif.Stream

variable {σ κ C C' : Type}

/-- Result of the user's batcher. -/
inductive BatchRes (C' : Type) where
  | ok (c : C')
  /-- `SkipSample`, or an exception that the error handler accepts (batch_dataset.py:191-196) -/
  | skip
  /-- one of `SYSTEM_EXCEPTIONS`, or the error handler raises -/
  | fatal

/-- The batcher gets the sample index and the list of samples. -/
abbrev BatchFn (C C' : Type) := Nat → List (Smp C) → BatchRes C'

inductive BatchCtl where
  /-- about to take a sample (also: the fresh generator, then `batch` and `keys` are empty) -/
  | loop
  /-- `flush()`; `last`: it is the flush of line 205 -/
  | flush (last : Bool)
  /-- suspended at the yield of line 189 -/
  | emitted (last : Bool)
  /-- the end of `__iter__` -/
  | done

/-- `idx`: the `SampleIndex` of this worker; `batch`, `keys`: the local variables `batch`, `sample_restore_keys`. -/
structure BatchX (C : Type) where
  idx : Nat
  batch : List (Smp C)
  keys : List (List Key)
  ctl : BatchCtl

/-- batch_dataset.py:188, set_sample_restore_key (base_dataset.py:406-423): the key of a batch consists of the class name,
the sample index and the keys of the samples, as nested tuples. -/
def batchKey (idx : Nat) (keys : List (List Key)) : List Key :=
  .str "BatchDataset" :: .num idx :: keys.map .tup

/-- batch_dataset.py:274-280, 300-305: the nested keys. -/
def keyTuples (l : List Key) : Option (List (List Key)) :=
  l.mapM fun
    | .tup k => some k
    | _ => none

/-- batch_dataset.py:129-205 `__iter__`, in the case that `_generator_sample_keys` is `None`. `sample_restore_keys.clear()`
(line 190) runs after the yield; on `SkipSample` or a handled exception it does not run, so the keys of the failed batch
stay in the list. -/
def batchW (D : Dataset σ (Smp C) κ) (bs : Nat) (dropLast : Bool) (f : BatchFn C C') :
    Wrapper Unit (Smp C) (Smp C') (BatchX C) Nat :=
  { init := ⟨0, [], [], .loop⟩
    act := fun x =>
      match x.ctl with
      | .loop =>
        .pull () (fun a =>
            ⟨x.idx, x.batch ++ [a], x.keys ++ [a.key],
              if x.batch.length + 1 = bs then .flush false else .loop⟩)
          (if 0 < x.batch.length ∧ dropLast = false then ⟨x.idx, x.batch, x.keys, .flush true⟩
            else ⟨x.idx, [], [], .done⟩)
      | .flush last =>
        match f x.idx x.batch with
        | .ok c => .emit ⟨c, batchKey x.idx x.keys⟩ ⟨x.idx + 1, x.batch, x.keys, .emitted last⟩
        | .skip => .tau ⟨x.idx + 1, [], x.keys, if last then .done else .loop⟩
        | .fatal => .raise
      | .emitted last => .tau ⟨x.idx, [], [], if last then .done else .loop⟩
      | .done => .halt ⟨x.idx, [], [], .loop⟩
    save := fun x => x.idx
    resume := fun n => ⟨n, [], [], .loop⟩
    reset := fun _ => ⟨0, [], [], .loop⟩
    -- batch_dataset.py:271-305, for `batcher_stateless=True` (otherwise `restore_sample` raises, see `Pipeline.onlyIf`)
    restoreSample := fun key =>
      match key with
      | .str id :: .num idx :: rest =>
        if id = "BatchDataset" then
          match (keyTuples rest).bind fun ks => ks.mapM D.restoreSample with
          | some batch =>
            match f idx batch with
            | .ok c => some ⟨c, key⟩
            | _ => none
          | none => none
        else none
      | _ => none
    hasSamples := D.hasSamples }

/-- batch_dataset.py:59-331 `BatchDataset`. -/
def batchD (D : Dataset σ (Smp C) κ) (bs : Nat) (dropLast : Bool) (f : BatchFn C C') :
    Dataset (σ × BatchX C) (Smp C') (κ × Nat) := wrap D (batchW D bs dropLast f)

/-- batch_dataset.py:111-127 `__len__`; `nSamples = len(self.dataset)`, `nw` is `worker_config.num_workers`. -/
def batchLen (nSamples nw bs : Nat) (dropLast : Bool) : Nat :=
  let numWorkers := max nw 1
  let perWorkerFloor := nSamples / numWorkers
  let remaining := nSamples % numWorkers
  let batchesFloor := perWorkerFloor / bs + if perWorkerFloor % bs ≠ 0 ∧ dropLast = false then 1 else 0
  let c := (perWorkerFloor + 1) / bs
  let batchesCeil := c + if c % bs ≠ 0 ∧ dropLast = false then 1 else 0
  batchesFloor * (numWorkers - remaining) + batchesCeil * remaining

end Verif.Stream
