import Verif.Float.Model

/-!
# Model of `Sharder` (distribution of shards to ranks and workers)

Source: /repo src/megatron/energon/flavors/webdataset/sharder.py (whole file) and the rotation
offsets of /repo src/megatron/energon/task_encoder/base.py:502-524.
-/

namespace Verif.Sharder
open Verif.Float

/-- structs.py:25-37 `ShardInfo` (the `path` field is determined by `name` and left out). -/
structure ShardInfo where
  name : String
  offset : ℕ
  count : ℕ
  byteOffset : Option ℕ := none
  byteSize : Option ℕ := none
deriving DecidableEq, Repr

/-- sharder.py: a `Sequence[ShardInfo]`, one entry per joined column. The code always accesses
`subshards[0]`; a first column therefore exists (`head`). -/
structure Subshards where
  head : ShardInfo
  tail : List ShardInfo := []
deriving DecidableEq, Repr

/-- All columns. -/
def Subshards.cols (s : Subshards) : List ShardInfo := s.head :: s.tail

/-- The exceptions that can leave `shard_workers`. -/
inductive Err where
  /-- sharder.py:97, 112 `raise ValueError("Invalid shard distribution")` -/
  | invalidShardDistribution
  /-- sharder.py:291-293 `assert len(local_worker_sample_split_offsets) == num_workers + 1` -/
  | assertion
  /-- sharder.py:239-240 division by zero if `world_size` is 0 -/
  | zeroDivision
deriving DecidableEq, Repr

/-- sharder.py:36-43, 49-56 `dataclasses.replace(shard, offset=.., count=.., byte_offset=None,
byte_size=None) for shard in subshards`. -/
def Subshards.slice (s : Subshards) (offset count : ℕ) : Subshards :=
  let r : ShardInfo → ShardInfo := fun c =>
    { c with offset := offset, count := count, byteOffset := none, byteSize := none }
  { head := r s.head, tail := s.tail.map r }

/-- sharder.py:28 `slice_count = max(round((end - start) / max_samples_per_sequence), 1)`. -/
def sliceCount (n m : ℕ) : ℕ := max (roundHalfEven (pyDiv n m)).toNat 1

/-- sharder.py:32-34 the relative slice offsets `int(slice * samples_per_sequence)` for
`slice in range(slice_count + 1)` (without the `start_offset +`). -/
def sliceOffsets (n k : ℕ) : List ℕ :=
  (List.range (k + 1)).map fun i => pyInt (pyMul i (pyDiv n k))

/-- sharder.py:15-58 `_split_shard`. `start_offset ≤ end_offset` in all calls (Python would produce
a negative count otherwise, the natural subtraction here 0). -/
def splitShard (s : Subshards) (start stop : ℕ) (maxSamples : Option ℕ) : List Subshards :=
  let single := [s.slice start (stop - start)]
  match maxSamples with
  | none => single
  | some m =>
    if ((stop - start : ℕ) : ℚ) > fl ((m : ℚ) * (3 / 2)) then
      let k := sliceCount (stop - start) m
      let offsets := (sliceOffsets (stop - start) k).map (start + ·)
      (List.range k).map fun idx =>
        s.slice (offsets.getD idx 0) (offsets.getD (idx + 1) 0 - offsets.getD idx 0)
    else single

/-- sharder.py:86-97 and 101-112, the two search loops: skip shards lying completely before
`target`. Returns the skipped shards, the new `cum_count`, and the found shard with all following.
`none` is the `for ... else: raise ValueError`. -/
def findShard (target : ℕ) : ℕ → List Subshards → Option (List Subshards × ℕ × Subshards × List Subshards)
  | _, [] => none
  | cum, s :: rest =>
    if cum + s.head.count < target then
      match findShard target (cum + s.head.count) rest with
      | none => none
      | some (skipped, c, f, r) => some (s :: skipped, c, f, r)
    else some ([], cum, s, rest)

/-- sharder.py:99-152, the loop over `offsets[1:]`. State: `cum_count`, `start_offset`,
`start_subshards = cur` and the shards behind it (`shards[start_index+1:]`). -/
def splitLoop (maxSamples : Option ℕ) :
    List ℕ → ℕ → ℕ → Subshards → List Subshards → Except Err (List (List Subshards))
  | [], _, _, _, _ => .ok []
  | target :: targets, cum, startOffset, cur, rest =>
    match findShard target cum (cur :: rest) with
    | none => .error .invalidShardDistribution
    | some (skipped, cum', found, rest') =>
      let endOffset := target - cum'
      let part : List Subshards :=
        match skipped with
        | [] => splitShard cur startOffset endOffset maxSamples
        | first :: middle =>
          (if first.head.count > startOffset then
              splitShard first startOffset first.head.count maxSamples
            else [])
          ++ middle.flatMap (fun s => splitShard s s.head.offset s.head.count maxSamples)
          ++ splitShard found found.head.offset endOffset maxSamples
      match splitLoop maxSamples targets cum' endOffset found rest' with
      | .error e => .error e
      | .ok parts => .ok (part :: parts)

/-- sharder.py:61-152 `_split_shards`. -/
def splitShards (shards : List Subshards) (offsets : List ℕ) (maxSamples : Option ℕ) :
    Except Err (List (List Subshards)) :=
  match offsets with
  | [] => .ok []
  | o :: os =>
    match findShard o 0 shards with
    | none => .error .invalidShardDistribution
    | some (_, cum, cur, rest) => splitLoop maxSamples os cum (o - cum) cur rest

/-- sharder.py:200-202 `zip_longest` of the two halves, flattened, `None` filtered out. -/
def interleave {α : Type} : List α → List α → List α
  | [], ys => ys
  | x :: xs, [] => x :: xs
  | x :: xs, y :: ys => x :: y :: interleave xs ys

/-- sharder.py:155-203 `_generalized_bit_reversal` on a list of indices. -/
def bitRev (l : List ℕ) : List ℕ :=
  if _h : l.length ≤ 2 then l
  else interleave (bitRev (l.take (l.length / 2))) (bitRev (l.drop (l.length / 2)))
termination_by l.length
decreasing_by
  all_goals simp only [List.length_take, List.length_drop]; omega

/-- worker.py `WorkerConfig` as far as sharding reads it. -/
structure WorkerConfig where
  rank : ℕ
  worldSize : ℕ
  numWorkers : ℕ
deriving DecidableEq, Repr

/-- sharder.py:234 `max(1, worker_config.num_workers)`. -/
def WorkerConfig.workers (w : WorkerConfig) : ℕ := max 1 w.numWorkers

/-- sharder.py:237 `global_workers`. -/
def WorkerConfig.globalWorkers (w : WorkerConfig) : ℕ := w.workers * w.worldSize

/-- sharder.py:252-262: number of samples per global worker before permutation. -/
def linearCounts (total g : ℕ) (rotation : ℤ) : List ℕ :=
  (List.range g).map fun (i : ℕ) =>
    if ((i : ℤ) - rotation + g) % g < ((total % g : ℕ) : ℤ) then pyInt (pyDiv total g) + 1
    else pyInt (pyDiv total g)

/-- sharder.py:273-277: `new[new_worker_idx] = num_samples[old_worker_idx]`. (The initial -1 of the
code is 0 here; it is always overwritten because `bitRev` is a permutation.) -/
def permuteCounts (seq counts : List ℕ) : List ℕ :=
  (seq.zip counts).foldl (fun acc p => acc.set p.1 p.2) (List.replicate counts.length 0)

/-- sharder.py:282-286: `[0]` followed by the running sums. -/
def cumulative : ℕ → List ℕ → List ℕ
  | acc, [] => [acc]
  | acc, c :: cs => acc :: cumulative (acc + c) cs

/-- sharder.py:252-286 all global offsets. -/
def globalOffsets (total g : ℕ) (rotation : ℤ) : List ℕ :=
  cumulative 0 (permuteCounts (bitRev (List.range g)) (linearCounts total g rotation))

/-- sharder.py:206-304 `shard_workers`. -/
def shardWorkers (shards : List Subshards) (w : WorkerConfig) (maxSamples : Option ℕ)
    (rotation : ℤ) : Except Err (List (List Subshards)) :=
  let n := w.workers
  let total := (shards.map (·.head.count)).sum
  let g := w.globalWorkers
  if g = 0 then .error .zeroDivision
  else
    let offsets := globalOffsets total g rotation
    -- `offsets[rank * n : (rank + 1) * n + 1]`
    let loc := (offsets.drop (w.rank * n)).take (n + 1)
    if loc.length ≠ n + 1 then .error .assertion
    else
      match splitShards shards loc maxSamples with
      | .error e => .error e
      | .ok parts => .ok (parts.map fun part => part.filter fun s => s.head.count > 0)

/-- task_encoder/base.py:502-511: the rotation offset of each of several jointly loaded datasets. -/
def rotationOffsets (lengths : List ℕ) (g : ℕ) : List ℕ :=
  (List.range lengths.length).map fun i => (lengths.take i).sum % g

end Verif.Sharder
