import Verif.Wrap.BatchModel

/-!
# GroupBatchDataset

Source: /repo src/megatron/energon/wrappers/group_batch_dataset.py.
-/

namespace Verif.Stream

variable {σ κ C C' K A : Type} [DecidableEq K]

/-- group_batch_dataset.py:101 `_buckets[worker]`: a dict from group key to batch size and samples, in insertion order. -/
abbrev Buckets (K A : Type) := List (K × Nat × List A)

/-- `buckets.get(key)` -/
def bucketGet (k : K) : Buckets K A → Option (Nat × List A)
  | [] => none
  | (k', v) :: B => if k' = k then some v else bucketGet k B

/-- `buckets[key] = ...`: replaces in place, or appends. -/
def bucketSet (k : K) (b : Nat) (l : List A) : Buckets K A → Buckets K A
  | [] => [(k, b, l)]
  | (k', v) :: B => if k' = k then (k, b, l) :: B else (k', v) :: bucketSet k b l B

/-- Result of the user's `sample_group_key`. -/
inductive GroupRes (K : Type) where
  | group (k : K) (batchSize : Option Nat)
  /-- `SkipSample` or a handled exception -/
  | skip
  | fatal

abbrev GroupFn (C K : Type) := Nat → Smp C → GroupRes K

inductive GroupCtl (C K : Type) where
  /-- about to take a sample (also: the fresh generator) -/
  | loop
  | got (a : Smp C)
  /-- `flush` of the bucket `k` in the loop -/
  | flush (k : K)
  /-- lines 208-212, with the keys of the buckets still to visit -/
  | final (ks : List K)

/-- `gidx`, `bidx`: `_group_key_sample_index`, `_batch_sample_index`. -/
structure GroupX (C K : Type) where
  gidx : Nat
  bidx : Nat
  buckets : Buckets K (Smp C)
  ctl : GroupCtl C K

/-- group_batch_dataset.py:180-187: which batch size applies; the assertion of line 182 is handled like any exception of
the user function. -/
def groupSize (fixed : Option Nat) (r : GroupRes K) : GroupRes (K × Nat) :=
  match r with
  | .group k bs =>
    match fixed, bs with
    | some n, none => .group (k, n) none
    | none, some n => .group (k, n) none
    | _, _ => .skip
  | .skip => .skip
  | .fatal => .fatal

/-- group_batch_dataset.py:160-175 `flush`: takes the samples out of the bucket, and calls the batcher. -/
def groupFlush (f : BatchFn C C') (x : GroupX C K) (k : K) (next : GroupCtl C K) :
    Act Unit (Smp C) (Smp C') (GroupX C K) :=
  match bucketGet k x.buckets with
  | some (b, items) =>
    let x' : GroupX C K := { x with bidx := x.bidx + 1, buckets := bucketSet k b [] x.buckets, ctl := next }
    match f x.bidx items with
    | .ok c => .emit ⟨c, .str "GroupBatchDataset" :: .num x.bidx :: items.map fun a => .tup a.key⟩ x'
    | .skip => .tau x'
    | .fatal => .raise
  | none => .raise

/-- group_batch_dataset.py:145-214 `__iter__`, 216-290 save and restore. In `restore_state` (lines 271-282) the
buffer of the worker that owns the bucket is the empty list (the condition is inverted), so a resumed worker finds its
buckets without samples. `restore_state(None)` does not set back the two sample indexes (lines 251-252). -/
def groupW (D : Dataset σ (Smp C) κ) (fixed : Option Nat) (key : GroupFn C K) (f : BatchFn C C') (dropLast : Bool) :
    Wrapper Unit (Smp C) (Smp C') (GroupX C K) (Nat × Nat × Buckets K (List Key)) :=
  { init := ⟨0, 0, [], .loop⟩
    act := fun x =>
      match x.ctl with
      | .loop =>
        .pull () (fun a => { x with ctl := .got a })
          { x with ctl := .final (if dropLast then [] else x.buckets.map (·.1)) }
      | .got a =>
        match groupSize fixed (key x.gidx a) with
        | .group (k, n) _ =>
          match bucketGet k x.buckets with
          | none =>
            .tau ⟨x.gidx + 1, x.bidx, bucketSet k n [a] x.buckets, if n ≤ 1 then .flush k else .loop⟩
          | some (n', l) =>
            if n' = n then
              .tau ⟨x.gidx + 1, x.bidx, bucketSet k n (l ++ [a]) x.buckets,
                if n ≤ l.length + 1 then .flush k else .loop⟩
            else .raise
        | .skip => .tau ⟨x.gidx + 1, x.bidx, x.buckets, .loop⟩
        | .fatal => .raise
      | .flush k => groupFlush f x k .loop
      | .final [] => .halt { x with buckets := [], ctl := .loop }
      | .final (k :: ks) =>
        match bucketGet k x.buckets with
        | some (_, _ :: _) => groupFlush f x k (.final ks)
        | _ => .tau { x with ctl := .final ks }
    save := fun x => (x.gidx, x.bidx, x.buckets.map fun b => (b.1, b.2.1, b.2.2.map (·.key)))
    resume := fun k => ⟨k.1, k.2.1, k.2.2.map fun b => (b.1, b.2.1, []), .loop⟩
    reset := fun x => { x with buckets := [], ctl := .loop }
    -- group_batch_dataset.py:295-303, for `batcher_stateless=True` (otherwise `restore_sample` raises, see `Pipeline.onlyIf`)
    restoreSample := fun key =>
      match key with
      | .str id :: .num idx :: rest =>
        if id = "GroupBatchDataset" then
          match (keyTuples rest).bind fun ks => ks.mapM D.restoreSample with
          | some batch =>
            match f idx batch with
            | .ok c => some ⟨c, key⟩
            | _ => none
          | none => none
        else none
      | _ => none
    hasSamples := D.hasSamples }

/-- group_batch_dataset.py:82-329 `GroupBatchDataset`. -/
def groupD (D : Dataset σ (Smp C) κ) (fixed : Option Nat) (key : GroupFn C K) (f : BatchFn C C') (dropLast : Bool) :
    Dataset (σ × GroupX C K) (Smp C') (κ × (Nat × Nat × Buckets K (List Key))) :=
  wrap D (groupW D fixed key f dropLast)

end Verif.Stream
