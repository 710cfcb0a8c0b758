import Verif.Sharder.Model
import Verif.Wds.ReaderProps
import Verif.Wrap.SimpleModel
import Verif.Wrap.ShuffleModel
import Verif.Wrap.BlendModel
import Verif.Wrap.BatchModel
import Verif.Wrap.GroupModel
import Verif.Wrap.PackModel
import Verif.Wrap.MapGenModel
import Verif.Wrap.LengthModel

/-!
# The assembled datasets

Source: /repo src/megatron/energon/task_encoder/base.py:361-601 (`build_batch`, `build_cook_crude_sample`, `build_encode_sample`,
`build_train_datasets`, `build_val_datasets`), flavors/webdataset/base_webdataset.py:118-178 (`BaseWebdatasetFactory.build`).

What is built here is the dataset as it runs in worker `i` of rank `w.rank` (each worker process has a copy of the same objects
and uses its own slices, random generators, counters). Simplifications: samples are not excluded (see C42 for `exclude`), shards have
one column (see C54, C56 for joined datasets), none of the parts is a crude dataset without cookers (base.py:498-500, 570-572:
`AssertionError`); Python objects that are samples are of one type `C`.
-/

namespace Verif.Pipeline

open Verif.Stream Verif.Wds

variable {B C K ρ : Type}

/-- A dataset of samples, with some types of states and saved states. -/
structure AnyDs (C : Type) where
  σ : Type
  κ : Type
  D : Dataset σ (Smp C) κ

/-- Why nothing is built. -/
inductive BErr where
  | shard (e : Sharder.Err)
  /-- `ValueError("No datasets given.")` -/
  | noDatasets
  | assertion

/-- A prepared dataset: the shards of a split part (metadata), the contents of the tar files by name, and `load_sample` (which is
called through a stateless `MapDataset`), and the options of the factory. -/
structure Disk (B C : Type) where
  shards : List Sharder.Subshards
  tars : String → List (Member B)
  load : MapFn (Raw B) C
  shuffleOverEpochs : Mode := .over 1
  parallel : Option Nat := none
  maxSamples : Option Nat := none

/-- The slices of worker `i`, for the loader (base_webdataset.py:129-134). -/
def slicesFor (d : Disk B C) (w : Sharder.WorkerConfig) (rot i : Nat) : Except Sharder.Err (List (Slice (Raw B))) :=
  match Sharder.shardWorkers d.shards w d.maxSamples rot with
  | .error e => .error e
  | .ok ps => .ok ((ps.getD i []).map fun s => mkSlice d.tars s.head.name s.head.offset s.head.count)

/-- base_webdataset.py:119-127, 154-163: the parameters of the loader. -/
def loaderCfg (d : Disk B C) (training : Bool) (slices : List (Slice (Raw B))) : Cfg (Raw B) :=
  { shards := slices
    mode := if training then d.shuffleOverEpochs else .none
    parallel := d.parallel.getD (if training then 16 else 1)
    loop := training }

/-- The states of a part: loader, `MapDataset` for `load_sample`. -/
abbrev PartS (B ρ : Type) := LdX (Raw B) ρ × LoopX (Smp (Raw B))
/-- Its saved states. -/
abbrev PartK (ρ : Type) := LdState ρ × Nat

/-- base_webdataset.py:154-171: the dataset returned by `build`, given the slices. -/
def partD (R : WRng ρ) (d : Disk B C) (training : Bool) (slices : List (Slice (Raw B))) : Dataset (PartS B ρ) (Smp C) (PartK ρ) :=
  mapD (loaderD R (loaderCfg d training slices) (restoreTars d.tars (fun _ _ => false))) d.load true

/-- `dataset.build(worker_rotation_offset=rot)`, in worker `i` -/
def buildPart (R : WRng ρ) (d : Disk B C) (training : Bool) (w : Sharder.WorkerConfig) (rot i : Nat) :
    Except BErr (Dataset (PartS B ρ) (Smp C) (PartK ρ)) :=
  match slicesFor d w rot i with
  | .error e => .error (.shard e)
  | .ok slices => .ok (partD R d training slices)

/-- A user function for `MapDataset` -/
inductive UserMap (C : Type) where
  | plain (f : MapFn C C) (stateless : Bool)
  /-- a generator function -/
  | gen (f : GenFn C C) (stateless : Bool)

/-- The parts of a task encoder; `none` = the method is not overridden (for `cook`: there are no cookers). The functions
`cook_crude_sample`, `encode_sample`, `select_samples_to_pack` and `pack_selected_samples`, `batch_group_criterion`, `batch`,
`encode_batch`. The triple in `pack`: (pre packer, whether the final packer is a generator function, final packer). `packStateless`,
`batchStateless`: whether `pack_selected_samples` and `batch` are marked stateless. `batch` is no generator function. -/
structure Encoder (C K : Type) where
  cook : Option (UserMap C)
  encode : Option (UserMap C)
  pack : Option (PreFn C × Bool × FinalFn C C)
  packStateless : Bool := true
  group : Option (GroupFn C K)
  batch : BatchFn C C
  batchStateless : Bool := true
  batchOverridden : Bool
  encodeBatch : Option (UserMap C)

/-- `assert_can_restore` at the beginning of `restore_sample`: batch_dataset.py:265-273, group_batch_dataset.py:289-296,
packing_dataset.py:328-336. -/
def onlyIf (stateless : Bool) (A : AnyDs C) : AnyDs C :=
  ⟨A.σ, A.κ, { A.D with restoreSample := fun k => if stateless then A.D.restoreSample k else none }⟩

/-- A `MapDataset` if there is a function: base.py:444-466, 475-482, 420-426 -/
def mapStage (u : Option (UserMap C)) (A : AnyDs C) : AnyDs C :=
  match u with
  | none => A
  | some (.plain f st) => ⟨_, _, mapD A.D f st⟩
  | some (.gen f st) => ⟨_, _, mapGenD A.D f st⟩

/-- base.py:372-393: packing -/
def packStage (E : Encoder C K) (size : Option Nat) (A : AnyDs C) : Except BErr (AnyDs C) :=
  match size with
  | none => .ok A
  | some n =>
    match E.pack with
    | none => .error .assertion
    | some (pre, gen, f) => .ok (onlyIf E.packStateless ⟨_, _, packD A.D n pre gen f⟩)

/-- base.py:395-433: grouping or batching. `GroupBatchDataset` is created without `batcher_stateless` (base.py:399-406), and the default is
`False` (group_batch_dataset.py:108). -/
def batchStage [DecidableEq K] (E : Encoder C K) (batchSize : Option Nat) (dropLast : Bool) (A : AnyDs C) : Except BErr (AnyDs C) :=
  match E.group with
  | some key => .ok (onlyIf false ⟨_, _, groupD A.D batchSize key E.batch dropLast⟩)
  | none =>
    match batchSize with
    | some n => .ok (mapStage E.encodeBatch (onlyIf E.batchStateless ⟨_, _, batchD A.D n dropLast E.batch⟩))
    | none => if E.encodeBatch.isSome || E.batchOverridden then .error .assertion else .ok A

/-- base.py:361-435 `build_batch` -/
def buildBatch [DecidableEq K] (E : Encoder C K) (batchSize : Option Nat) (dropLast : Bool) (packing : Option Nat) (A : AnyDs C) :
    Except BErr (AnyDs C) :=
  match packStage E packing A with
  | .error e => .error e
  | .ok A => batchStage E batchSize dropLast A

/-- The random generators of the datasets in one worker. -/
structure Rngs (ρ : Type) where
  reader : Nat → WRng ρ
  blend : Rng ρ
  shuffle : Rng ρ

/-- Build all parts: `rots` are the rotation offsets. `j` counts the parts. -/
def buildParts (R : Rngs ρ) (training : Bool) (w : Sharder.WorkerConfig) (i : Nat) :
    Nat → List (Disk B C × Nat) → Except BErr (List (Dataset (PartS B ρ) (Smp C) (PartK ρ)))
  | _, [] => .ok []
  | j, (d, rot) :: l =>
    match buildPart (R.reader j) d training w rot i, buildParts R training w i (j + 1) l with
    | .ok D, .ok Ds => .ok (D :: Ds)
    | .error e, _ => .error e
    | _, .error e => .error e

/-- The parts by number. (Numbers beyond the list are not used; they get the first part.) -/
def nth {σ κ : Type} (D : Dataset σ (Smp C) κ) (Ds : List (Dataset σ (Smp C) κ)) (k : Nat) : Dataset σ (Smp C) κ :=
  (D :: Ds).getD k D

/-- `len(dataset)` of the factory: base_webdataset.py:115-116 -/
def Disk.len (d : Disk B C) : Nat := (d.shards.map (·.head.count)).sum

/-- base.py:502-531: blend of several datasets, or the only one. The rotation offset of a single dataset is 0. -/
def trainSource (R : Rngs ρ) (ds : List (Disk B C)) (w : Sharder.WorkerConfig) (i : Nat) : Except BErr (AnyDs C) :=
  match ds with
  | [] => .error .noDatasets
  | [d] =>
    match buildPart (R.reader 0) d true w 0 i with
    | .error e => .error e
    | .ok D => .ok ⟨_, _, D⟩
  | d :: d' :: l =>
    let rots := Sharder.rotationOffsets ((d :: d' :: l).map Disk.len) w.globalWorkers
    match buildParts R true w i 0 ((d :: d' :: l).zip rots) with
    | .error e => .error e
    | .ok [] => .error .noDatasets
    | .ok (D :: Ds) => .ok ⟨_, _, blendD (nth D Ds) (Ds.length + 1) R.blend⟩

/-- The parameters of `build_train_datasets`; `logging`: `worker_config.should_log(level=1)` (validation: `level=2`) -/
structure TrainOpts where
  batchSize : Option Nat
  dropLast : Bool
  packing : Option Nat
  epochLength : Nat
  shuffleSize : Option Nat
  logging : Bool

/-- base.py:532-537 -/
def shuffleStage (R : Rngs ρ) (size : Option Nat) (A : AnyDs C) : AnyDs C :=
  match size with
  | none => A
  | some n => if 1 < n then ⟨_, _, shuffleD A.D R.shuffle n⟩ else A

/-- base.py:547-552 -/
def epochStage (length nw i : Nat) (A : AnyDs C) : AnyDs C :=
  if 0 < length then ⟨_, _, epochizeD A.D length nw i⟩ else A

/-- base.py:553-554, 599-600 -/
def logStage (logging : Bool) (A : AnyDs C) : AnyDs C := if logging then ⟨_, _, logD A.D⟩ else A

/-- base.py:484-555 `build_train_datasets`: the dataset as it is used in worker `i` of the rank. -/
def trainDs [DecidableEq K] (R : Rngs ρ) (E : Encoder C K) (ds : List (Disk B C)) (o : TrainOpts) (w : Sharder.WorkerConfig) (i : Nat) :
    Except BErr (AnyDs C) :=
  match trainSource R ds w i with
  | .error e => .error e
  | .ok A =>
    match buildBatch E o.batchSize o.dropLast o.packing (mapStage E.encode (mapStage E.cook (shuffleStage R o.shuffleSize A))) with
    | .error e => .error e
    | .ok A => .ok (logStage o.logging (epochStage o.epochLength w.numWorkers i A))

/-! ### Validation -/

/-- base.py:574-582 -/
def valSource (R : Rngs ρ) (ds : List (Disk B C)) (w : Sharder.WorkerConfig) (i : Nat) : Except BErr (AnyDs C) :=
  match ds with
  | [] => .error .noDatasets
  | [d] =>
    match buildPart (R.reader 0) d false w 0 i with
    | .error e => .error e
    | .ok D => .ok ⟨_, _, D⟩
  | d :: d' :: l =>
    match buildParts R false w i 0 ((d :: d' :: l).map fun d => (d, 0)) with
    | .error e => .error e
    | .ok [] => .error .noDatasets
    | .ok (D :: Ds) => .ok ⟨_, _, concatD (nth D Ds) (Ds.length + 1)⟩

/-- The parameters of `build_val_datasets` -/
structure ValOpts where
  batchSize : Nat
  dropLast : Bool
  packing : Option Nat
  limit : Option Nat
  logging : Bool

/-- base.py:592-598 -/
def limitStage (limit : Option Nat) (nw i : Nat) (A : AnyDs C) : AnyDs C :=
  match limit with
  | none => A
  | some n => if 0 < n then ⟨_, _, limitD A.D n nw i true⟩ else A

/-- base.py:557-601 `build_val_datasets` -/
def valDs [DecidableEq K] (R : Rngs ρ) (E : Encoder C K) (ds : List (Disk B C)) (o : ValOpts) (w : Sharder.WorkerConfig) (i : Nat) :
    Except BErr (AnyDs C) :=
  match valSource R ds w i with
  | .error e => .error e
  | .ok A =>
    match buildBatch E (some o.batchSize) o.dropLast o.packing (mapStage E.encode (mapStage E.cook A)) with
    | .error e => .error e
    | .ok A => .ok (logStage o.logging (limitStage o.limit w.numWorkers i A))

end Verif.Pipeline
