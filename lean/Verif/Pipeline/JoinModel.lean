import Verif.Pipeline.Model
import Verif.Wds.JoinProps

/-!
# Datasets joined from several prepared datasets

Source: /repo src/megatron/energon/flavors/webdataset/joined_webdataset.py:39-255 (`JoinedWebdatasetFactory`), used by
metadataset/join_dataset_loader.py; sample_loader.py:198-265, 554-584; task_encoder/base.py:484-601.

Simplifications: nothing is excluded (all columns have the same `sample_excludes`, joined_webdataset.py:122-125), no `part_filter`. The restore key that `load_sample` puts on the
joined sample (joined_webdataset.py:218-242) is put on already when the columns are read. Columns whose samples do not agree: reading raises (C54_tars_detects); here the slice ends.
-/

namespace Verif.Pipeline

open Verif.Stream Verif.Wds

variable {B C K ρ : Type}

/-- One of the prepared datasets that are joined: the shards of its split part, the contents of the tar files by name. -/
structure Column (B : Type) where
  shards : List Sharder.ShardInfo
  tars : String → List (Member B)

/-- joined_webdataset.py:62-145: the factory of a joined dataset: `inner_datasets`, `load_sample` (which loads the samples of all columns and calls the joiner) and the options.
`joined = false`: a prepared dataset that is not joined (with one column), so that blends can contain both. -/
structure JDisk (B C : Type) where
  first : Column B
  others : List (Column B)
  load : MapFn (Joined B) C
  joined : Bool := true
  shuffleOverEpochs : Mode := .over 1
  parallel : Option Nat := none
  maxSamples : Option Nat := none

/-- All columns -/
def JDisk.cols (d : JDisk B C) : List (Column B) := d.first :: d.others

/-- joined_webdataset.py:137 `list(zip(*(dataset.shards for dataset in self.inner_datasets)))` -/
def zipShards : List Sharder.ShardInfo → List (List Sharder.ShardInfo) → List Sharder.Subshards
  | [], _ => []
  | s :: l, ls => if ls.all (!·.isEmpty) then ⟨s, ls.filterMap List.head?⟩ :: zipShards l (ls.map List.tail) else []

/-- joined_webdataset.py:119-137: the assertions (the same number of shards, the same number of samples in each), and `self.shards` -/
def JDisk.shards? (d : JDisk B C) : Except BErr (List Sharder.Subshards) :=
  if d.others.all fun c => c.shards.length == d.first.shards.length then
    if d.others.all fun c => (c.shards.zip d.first.shards).all fun p => p.1.count == p.2.count then
      .ok (zipShards d.first.shards (d.others.map (·.shards)))
    else .error .assertion
  else .error .assertion

/-- sample_loader.py:206-220: the readers of the columns, each opened at its own slice -/
def openEach : List (Column B) → List Sharder.ShardInfo → Option (List (Col B))
  | [], [] => some []
  | c :: cs, s :: ss => (openCol s.offset s.count (c.tars s.name, s.name)).bind fun r => (openEach cs ss).map (r :: ·)
  | _, _ => none

/-- sample_loader.py:221-265: what the loop yields, with the default handler. Each turn reads at least one member of the first tar file, which bounds the number of turns. -/
def readLoop : Nat → Multi B → List (Joined B)
  | 0, _ => []
  | k + 1, m =>
    match multiNext true m with
    | .got row m' => row :: readLoop k m'
    | _ => []

/-- sample_loader.py:198-265 `_read_multicolumn_shard` from the beginning of a slice -/
def jRows (d : JDisk B C) (s : Sharder.Subshards) : List (Joined B) :=
  match openEach d.cols s.cols with
  | some (p :: cols) => readLoop ((d.first.tars s.head.name).length + 1) (multiOpen p cols)
  | _ => []

/-- joined_webdataset.py:218-242: the restore key -/
def JDisk.keyOf (d : JDisk B C) (row : Joined B) : List Key := if d.joined then joinedKey row else combineKeys row

/-- A slice for the loader -/
def jSlice (d : JDisk B C) (s : Sharder.Subshards) : Slice (Joined B) :=
  ⟨(s.head.name, s.head.offset), s.head.count, (jRows d s).map fun row => ⟨row, d.keyOf row⟩⟩

/-- sample_loader.py:554-584 `restore_sample` -/
def restoreJ (d : JDisk B C) : List Key → Option (Smp (Joined B))
  | .str id :: k =>
    (keyPairs k).bind fun ps =>
      (restoreJoined (List.zipWith (fun c p => (c.tars p.1, p.1)) d.cols ps) (.str id :: k)).map fun row => ⟨row, d.keyOf row⟩
  | _ => none

/-- joined_webdataset.py:160-165: the slices of worker `i` -/
def jSlicesFor (d : JDisk B C) (w : Sharder.WorkerConfig) (rot i : Nat) : Except BErr (List (Slice (Joined B))) :=
  match d.shards? with
  | .error e => .error e
  | .ok shards =>
    match Sharder.shardWorkers shards w d.maxSamples rot with
    | .error e => .error (.shard e)
    | .ok ps => .ok ((ps.getD i []).map (jSlice d))

/-- joined_webdataset.py:151-158, 188-198: the parameters of the loader -/
def jLoaderCfg (d : JDisk B C) (training : Bool) (slices : List (Slice (Joined B))) : Cfg (Joined B) :=
  { shards := slices
    mode := if training then d.shuffleOverEpochs else .none
    parallel := d.parallel.getD (if training then 16 else 1)
    loop := training }

/-- The states of a part -/
abbrev JPartS (B ρ : Type) := LdX (Joined B) ρ × LoopX (Smp (Joined B))

/-- joined_webdataset.py:188-216: the dataset returned by `build`, given the slices -/
def jPartD (R : WRng ρ) (d : JDisk B C) (training : Bool) (slices : List (Slice (Joined B))) : Dataset (JPartS B ρ) (Smp C) (PartK ρ) :=
  mapD (loaderD R (jLoaderCfg d training slices) (restoreJ d)) d.load true

/-- joined_webdataset.py:150-199 `build(worker_rotation_offset=rot)`, in worker `i` -/
def jBuildPart (R : WRng ρ) (d : JDisk B C) (training : Bool) (w : Sharder.WorkerConfig) (rot i : Nat) :
    Except BErr (Dataset (JPartS B ρ) (Smp C) (PartK ρ)) :=
  match jSlicesFor d w rot i with
  | .error e => .error e
  | .ok slices => .ok (jPartD R d training slices)

/-- task_encoder/base.py:516-524, 577-580: all parts; `j` counts them. -/
def jBuildParts (R : Rngs ρ) (training : Bool) (w : Sharder.WorkerConfig) (i : Nat) :
    Nat → List (JDisk B C × Nat) → Except BErr (List (Dataset (JPartS B ρ) (Smp C) (PartK ρ)))
  | _, [] => .ok []
  | j, (d, rot) :: l =>
    match jBuildPart (R.reader j) d training w rot i, jBuildParts R training w i (j + 1) l with
    | .ok D, .ok Ds => .ok (D :: Ds)
    | .error e, _ => .error e
    | _, .error e => .error e

/-- joined_webdataset.py:147-148 `__len__` -/
def JDisk.len (d : JDisk B C) : Nat := (d.first.shards.map (·.count)).sum

/-- task_encoder/base.py:502-531 -/
def jTrainSource (R : Rngs ρ) (ds : List (JDisk B C)) (w : Sharder.WorkerConfig) (i : Nat) : Except BErr (AnyDs C) :=
  match ds with
  | [] => .error .noDatasets
  | [d] =>
    match jBuildPart (R.reader 0) d true w 0 i with
    | .error e => .error e
    | .ok D => .ok ⟨_, _, D⟩
  | d :: d' :: l =>
    let rots := Sharder.rotationOffsets ((d :: d' :: l).map JDisk.len) w.globalWorkers
    match jBuildParts R true w i 0 ((d :: d' :: l).zip rots) with
    | .error e => .error e
    | .ok [] => .error .noDatasets
    | .ok (D :: Ds) => .ok ⟨_, _, blendD (nth D Ds) (Ds.length + 1) R.blend⟩

/-- task_encoder/base.py:484-555 `build_train_datasets`: the dataset as it is used in worker `i` of the rank. -/
def jTrainDs [DecidableEq K] (R : Rngs ρ) (E : Encoder C K) (ds : List (JDisk B C)) (o : TrainOpts) (w : Sharder.WorkerConfig) (i : Nat) :
    Except BErr (AnyDs C) :=
  match jTrainSource R ds w i with
  | .error e => .error e
  | .ok A =>
    match buildBatch E o.batchSize o.dropLast o.packing (mapStage E.encode (mapStage E.cook (shuffleStage R o.shuffleSize A))) with
    | .error e => .error e
    | .ok A => .ok (logStage o.logging (epochStage o.epochLength w.numWorkers i A))

/-- task_encoder/base.py:574-582 -/
def jValSource (R : Rngs ρ) (ds : List (JDisk B C)) (w : Sharder.WorkerConfig) (i : Nat) : Except BErr (AnyDs C) :=
  match ds with
  | [] => .error .noDatasets
  | [d] =>
    match jBuildPart (R.reader 0) d false w 0 i with
    | .error e => .error e
    | .ok D => .ok ⟨_, _, D⟩
  | d :: d' :: l =>
    match jBuildParts R false w i 0 ((d :: d' :: l).map fun d => (d, 0)) with
    | .error e => .error e
    | .ok [] => .error .noDatasets
    | .ok (D :: Ds) => .ok ⟨_, _, concatD (nth D Ds) (Ds.length + 1)⟩

/-- task_encoder/base.py:557-601 `build_val_datasets` -/
def jValDs [DecidableEq K] (R : Rngs ρ) (E : Encoder C K) (ds : List (JDisk B C)) (o : ValOpts) (w : Sharder.WorkerConfig) (i : Nat) :
    Except BErr (AnyDs C) :=
  match jValSource R ds w i with
  | .error e => .error e
  | .ok A =>
    match buildBatch E (some o.batchSize) o.dropLast o.packing (mapStage E.encode (mapStage E.cook A)) with
    | .error e => .error e
    | .ok A => .ok (logStage o.logging (limitStage o.limit w.numWorkers i A))

/-! ### Specification -/

/-- Joined sample number `k` of shard number `j`: sample number `k` of shard number `j` of each column. -/
def JDisk.row (d : JDisk B C) (j k : Nat) : Joined B :=
  d.cols.map fun c => c.shards[j]?.map fun s => sampleOf s.name k ((groups (entries (c.tars s.name))).getD k [])

/-- All joined samples, in order -/
def JDisk.samples (d : JDisk B C) : List (Joined B) := d.first.shards.zipIdx.flatMap fun p => (List.range p.1.count).map (d.row p.2)

/-- The datasets can be joined: the same number of shards with the same numbers of samples. -/
def JDisk.Match (d : JDisk B C) : Prop := ∀ c ∈ d.others, c.shards.map (·.count) = d.first.shards.map (·.count)

/-- The joined samples have the same names: in each shard, all columns have the same base names in the same order. -/
def JDisk.Agree (d : JDisk B C) : Prop :=
  ∀ c ∈ d.others, ∀ (j : Nat) (s t : Sharder.ShardInfo), d.first.shards[j]? = some s → c.shards[j]? = some t →
    (groups (entries (c.tars t.name))).map baseOf = (groups (entries (d.first.tars s.name))).map baseOf

/-- Well-formed prepared datasets that can be joined, and sensible options (see `Disk.Ok`): whole shards, the first dataset has shards with different names, the index agrees with
the files, the columns have the same samples. -/
structure JDisk.Ok (d : JDisk B C) : Prop where
  canJoin : d.Match
  agree : d.Agree
  whole : ∀ c ∈ d.cols, ∀ s ∈ c.shards, s.offset = 0
  counted : ∀ c ∈ d.cols, ∀ s ∈ c.shards, (groups (entries (c.tars s.name))).length = s.count
  tars : ∀ c ∈ d.cols, ∀ n, Sized (c.tars n)
  nonempty : d.first.shards ≠ []
  size : d.len ≤ 2 ^ 48
  names : (d.first.shards.map (·.name)).Nodup
  parallel : ∀ n, d.parallel = some n → 1 ≤ n
  maxSamples : ∀ n, d.maxSamples = some n → 1 ≤ n
  mode : d.shuffleOverEpochs ≠ .none

end Verif.Pipeline
