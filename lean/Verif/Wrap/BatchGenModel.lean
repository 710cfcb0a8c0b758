import Verif.Wrap.PackModel

/-!
# BatchDataset with a generator function as batcher

Source: /repo src/megatron/energon/wrappers/batch_dataset.py.
-/

namespace Verif.Stream

variable {σ κ C C' : Type}

inductive BGenCtl (C' : Type) where
  /-- fresh generator -/
  | start
  /-- about to take a sample (line 198) -/
  | loop
  /-- `flush()` is called; `last`: it is the one of line 205 -/
  | flush (last : Bool)
  /-- inside the generator of the batcher: `k` is the sample index, `j` the number of samples it has given, `rest` those it will give, `e` how it will end;
  `resumed`: in the part of lines 134-162, outside of the `try` -/
  | group (resumed last : Bool) (k j : Nat) (rest : List C') (e : FinalEnd)
  /-- the end of `__iter__` -/
  | done

/-- `idx`: the `SampleIndex`; `off`: `_generator_offsets` of this worker; `batch`, `keys`: the local variables `batch`, `sample_restore_keys`.

`_generator_sample_keys` of this worker is, if it is not `None` (which is so if and only if `off` is not), *the same list object* as `sample_restore_keys`
(lines 135, 172). So it needs no field of its own; in the state between two iterations `keys` is the list `_generator_sample_keys` refers to. -/
structure BGenX (C C' : Type) where
  idx : Nat
  off : Option Nat
  batch : List (Smp C)
  keys : List (List Key)
  ctl : BGenCtl C'

/-- batch_dataset.py:152-158, 178-184: the key has the sub index behind the sample index. -/
def batchGenKey (idx j : Nat) (keys : List (List Key)) : List Key :=
  .str "BatchDataset" :: .num idx :: .num j :: keys.map .tup

/-- batch_dataset.py:129-205 `__iter__` for a generator function, 207-260 save and restore (of this worker's state), 271-305 `restore_sample`
(for `batcher_stateless=True`).

- On resume (lines 134-162) the batcher is called with `_sample_index.current_idx`, one more than the index it had before; exceptions are not handled.
- After `SkipSample` or a handled exception (lines 191-196) `_generator_sample_keys`, `_generator_offsets` and the keys in `sample_restore_keys` stay. -/
def batchGenW (D : Dataset σ (Smp C) κ) (bs : Nat) (dropLast : Bool) (f : FinalFn C C') :
    Wrapper Unit (Smp C) (Smp C') (BGenX C C') (Nat × Option (List (List Key) × Nat)) :=
  { init := ⟨0, none, [], [], .start⟩
    act := fun x =>
      match x.ctl with
      | .start =>
        match x.off with
        | none => .tau ⟨x.idx, none, [], [], .loop⟩
        | some o =>
          match x.keys.mapM D.restoreSample with
          | none => .raise
          | some b => .tau ⟨x.idx, some 0, b, x.keys, .group true false x.idx o ((f x.idx b).1.drop o) (f x.idx b).2⟩
      | .loop =>
        .pull () (fun a => ⟨x.idx, x.off, x.batch ++ [a], x.keys ++ [a.key], if x.batch.length + 1 = bs then .flush false else .loop⟩)
          { x with ctl := if 0 < x.batch.length ∧ dropLast = false then .flush true else .done }
      | .flush last => .tau ⟨x.idx + 1, some 0, x.batch, x.keys, .group false last x.idx 0 (f x.idx x.batch).1 (f x.idx x.batch).2⟩
      | .group res last k j (c :: cs) e =>
        .emit ⟨c, batchGenKey k j x.keys⟩ { x with off := some (j + 1), ctl := .group res last k (j + 1) cs e }
      | .group res last _ _ [] e =>
        match e with
        | .done => .tau ⟨x.idx, none, [], [], if last then .done else .loop⟩
        | .skip => if res then .raise else .tau ⟨x.idx, x.off, [], x.keys, if last then .done else .loop⟩
        | .fatal => .raise
      | .done => .halt ⟨x.idx, x.off, [], if x.off = none then [] else x.keys, .start⟩
    save := fun x => (x.idx, x.off.map fun o => (x.keys, o))
    resume := fun k => ⟨k.1, k.2.map (·.2), [], (k.2.map (·.1)).getD [], .start⟩
    reset := fun _ => ⟨0, none, [], [], .start⟩
    restoreSample := fun key =>
      match key with
      | .str id :: .num k :: .num j :: rest =>
        if id = "BatchDataset" then
          match (keyTuples rest).bind fun ks => ks.mapM D.restoreSample with
          | some b => (f k b).1[j]?.map fun c => ⟨c, key⟩
          | none => none
        else none
      | _ => none
    hasSamples := D.hasSamples }

/-- batch_dataset.py:59-331 `BatchDataset` for a generator function. -/
def batchGenD (D : Dataset σ (Smp C) κ) (bs : Nat) (dropLast : Bool) (f : FinalFn C C') :
    Dataset (σ × BGenX C C') (Smp C') (κ × (Nat × Option (List (List Key) × Nat))) := wrap D (batchGenW D bs dropLast f)

/-- The state object that `save_state` (lines 207-220) returned in the state `x`, looked at later in the same iteration, when the dataset is in the state `y`:
`generator_sample_key` is the list object `sample_restore_keys` of the running iteration, not a copy, so it shows its present content. The other fields are numbers.
(So it is kept in `SavableDatasetWrapper._last_checkpoints`, savable_loader.py:448-455, and by a caller of `save_state_rank` without worker processes, lines 889-891,
until it is written to a file.) -/
def batchGenKept (D : Dataset σ (Smp C) κ) (bs : Nat) (dropLast : Bool) (f : FinalFn C C') (x y : BGenX C C') : Nat × Option (List (List Key) × Nat) :=
  (((batchGenW D bs dropLast f).save x).1, ((batchGenW D bs dropLast f).save x).2.map fun g => (y.keys, g.2))

end Verif.Stream
