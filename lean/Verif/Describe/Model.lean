/-!
# C115: `config()` of datasets

`/repo src/megatron/energon/flavors/base_dataset.py:330-344`: "Return a config dict that can be used to check if datasets have the same settings." Modelled: `config()` of all
dataset wrappers, of the reader, of the factories for webdatasets and joined webdatasets, and of the two loaders.

Simplifications: the dicts are compared as lists of keys and of values (the keys are always written in the same order, so this is `==` of Python), `type(self).__qualname__` is the name of
the class of the library (user-defined subclasses only for factories), weights (floats) are numbers of values.
-/

namespace Verif.Describe

/-- What configs are made of -/
inductive J where
  | null
  | bool (b : Bool)
  | num (n : Int)
  | str (s : String)
  | list (l : List J)
  | dict (keys : List String) (vals : List J)
  /-- a function or another object without a form in JSON; compared by identity -/
  | obj (id : Nat)

def J.dictOf (l : List (String × J)) : J := .dict (l.map (·.1)) (l.map (·.2))

def J.opt (n : Option Int) : J := match n with | some n => .num n | none => .null
def J.optStr (s : Option String) : J := match s with | some s => .str s | none => .null

/-- A function object: `__module__` and `__qualname__` as base_dataset.py:331-337 finds them, and which function it is (closures and bound methods of different objects have the same names) -/
structure Fn where
  module : String
  qualname : String
  id : Nat

/-- base_dataset.py:330-337 `_function_config` -/
def Fn.text (f : Fn) : String := f.module ++ "." ++ f.qualname

/-- `map_fn_config` and the like: a value or a function returning a value -/
inductive Cfg where
  | value (j : J)
  | call (j : J)

/-- `bool(value)` -/
def J.truthy : J → Bool
  | .null => false
  | .bool b => b
  | .num n => n ≠ 0
  | .str s => s ≠ ""
  | .list l => !l.isEmpty
  | .dict keys _ => !keys.isEmpty
  | .obj _ => true

/-- map_dataset.py:271-279 and the same in the other wrappers: the entry is left out for false values -/
def Cfg.shown : Cfg → Option J
  | .value j => if j.truthy then some j else none
  | .call j => some j

def entry (key : String) (c : Option J) : List (String × J) :=
  match c with
  | some j => [(key, j)]
  | none => []

/-- worker.py: the settings of a `WorkerConfig` that matter for the samples -/
structure WC where
  rank : Nat
  worldSize : Nat
  numWorkers : Nat
  /-- the size of the data parallel group -/
  group : Option Nat
  seedOffset : Int

/-- worker.py:225-233 -/
def WC.config (w : WC) : J :=
  .dictOf [("rank", .num w.rank), ("world_size", .num w.worldSize), ("num_workers", .num w.numWorkers),
    ("data_parallel_group", .opt (w.group.map fun n => (n : Int)))]

/-- flavors/webdataset/structs.py `ShardInfo` -/
structure Sub where
  name : String
  path : String
  offset : Int
  count : Int
  byteOffset : Option Int
  byteSize : Option Int

/-- sample_loader.py:762-769 -/
def Sub.config (s : Sub) : J :=
  .dictOf [("name", .str s.name), ("path", .str s.path), ("offset", .num s.offset), ("count", .num s.count),
    ("byte_offset", .opt s.byteOffset), ("byte_size", .opt s.byteSize)]

/-- The datasets, with all parameters of their constructors -/
inductive Ds where
  /-- `WebdatasetSampleLoaderDataset` (sample_loader.py:125-170). `exclude`: a set; the list is the order in which this process iterates over it -/
  | reader (shards : List (List (List Sub))) (wc : WC) (exclude : List String) (loop : Bool) (shuffleOver : Option Int) (parallel : Int) (partFilter handler : Fn)
  | map (d : Ds) (fn : Fn) (cfg : Cfg) (stateless : Bool) (handler : Fn) (wc : WC)
  | filter (d : Ds) (fn : Fn) (cfg : Cfg) (wc : WC)
  | iterMap (d : Ds) (fn : Fn) (cfg : Cfg) (len handler : Fn) (stateless : Bool) (wc : WC)
  | batch (d : Ds) (size : Int) (batcher : Fn) (cfg : Cfg) (stateless dropLast : Bool) (handler : Fn) (wc : WC)
  | group (d : Ds) (fixed : Option Nat) (key batcher : Fn) (cfg : Cfg) (stateless dropLast : Bool) (handler : Fn) (wc : WC)
  | pack (d : Ds) (size : Int) (pre final : Fn) (stateless : Bool) (cfg : Cfg) (handler : Fn) (wc : WC)
  | limit (d : Ds) (length : Int) (reset : Bool) (wc : WC)
  | repeat (d : Ds) (repeats : Option Int) (wc : WC)
  | epochize (d : Ds) (length : Int) (wc : WC)
  | shuffle (d : Ds) (size : Int) (wc : WC)
  | concat (ds : List Ds) (wc : WC)
  | blend (ds : List (Ds × Int)) (wc : WC)
  /-- `MixBatchDataset`, with the `BatchDataset` it makes (mix_batch_dataset.py:107-115) -/
  | mix (d : Ds) (wc : WC)
  | log (d : Ds) (mode : String) (wc : WC)
  | gc (d : Ds) (every : Int) (freeze : Bool) (wc : WC)

mutual
/-- `config()` of: sample_loader.py:756-781, map_dataset.py:266-282, filter_dataset.py:96-112, iter_map_dataset.py:212-230, batch_dataset.py:307-328, group_batch_dataset.py:305-326,
packing_dataset.py:364-384, limit_dataset.py:138-145, repeat_dataset.py:111-117, epochize_dataset.py:133-139, shuffle_buffer_dataset.py:106-112, concat_dataset.py:110-114,
blend_dataset.py:149-156, mix_batch_dataset.py:123-127, log_sample_dataset.py:135-137, gc_dataset.py:119-121 -/
def config : Ds → J
  | .reader shards wc exclude loop shuffleOver parallel _ _ =>
    .dictOf [("type", .str "WebdatasetSampleLoaderDataset"), ("shards", .list (shards.map fun w => .list (w.map fun s => .list (s.map Sub.config)))), ("worker_config", wc.config),
      ("exclude", .list (exclude.map .str)), ("loop", .bool loop), ("shuffle_over_epochs", .opt shuffleOver), ("parallel_shard_iters", .num parallel)]
  | .map d fn cfg stateless _ _ =>
    .dictOf ([("type", .str "MapDataset"), ("dataset", config d), ("map_fn", .str fn.text)] ++ entry "map_fn_config" cfg.shown ++ [("map_fn_stateless", .bool stateless)])
  | .filter d fn cfg _ =>
    .dictOf ([("type", .str "FilterDataset"), ("dataset", config d), ("filter_fn", .str fn.text)] ++ entry "filter_fn_config" cfg.shown)
  | .iterMap d fn cfg len handler _ _ =>
    .dictOf ([("type", .str "IterMapDataset"), ("dataset", config d), ("iter_map_fn", .str fn.text)] ++ entry "iter_map_fn_config" cfg.shown ++
      [("len_map_fn", .str len.text), ("error_handler", .str handler.text)])
  | .batch d size batcher cfg stateless dropLast handler wc =>
    .dictOf ([("type", .str "BatchDataset"), ("batch_size", .num size), ("batcher", .str batcher.text)] ++ entry "batcher_config" cfg.shown ++
      [("batcher_stateless", .bool stateless), ("drop_last", .bool dropLast), ("error_handler", .str handler.text), ("worker_config", wc.config), ("dataset", config d)])
  | .group d _ key batcher cfg stateless dropLast handler wc =>
    .dictOf ([("type", .str "GroupBatchDataset"), ("bucket", .str key.text), ("batcher", .str batcher.text)] ++ entry "batcher_config" cfg.shown ++
      [("batcher_stateless", .bool stateless), ("drop_last", .bool dropLast), ("error_handler", .str handler.text), ("worker_config", wc.config), ("dataset", config d)])
  | .pack d size pre final stateless cfg handler wc =>
    .dictOf ([("type", .str "PackingDataset"), ("buffer_size", .num size), ("pre_packer", .str pre.text), ("final_packer", .str final.text), ("final_packer_stateless", .bool stateless)] ++
      entry "packer_config" cfg.shown ++ [("error_handler", .str handler.text), ("worker_config", wc.config), ("dataset", config d)])
  | .limit d length reset wc =>
    .dictOf [("type", .str "LimitDataset"), ("dataset", config d), ("length", .num length), ("reset_after_epoch", .bool reset), ("worker_config", wc.config)]
  | .repeat d repeats wc => .dictOf [("type", .str "RepeatDataset"), ("dataset", config d), ("repeats", .opt repeats), ("worker_config", wc.config)]
  | .epochize d length wc => .dictOf [("type", .str "EpochizeDataset"), ("dataset", config d), ("length", .num length), ("worker_config", wc.config)]
  | .shuffle d size wc => .dictOf [("type", .str "ShuffleBufferDataset"), ("dataset", config d), ("size", .num size), ("worker_config", wc.config)]
  | .concat ds _ => .dictOf [("type", .str "ConcatDataset"), ("datasets", .list (configs ds))]
  | .blend ds wc => .dictOf [("type", .str "BlendDataset"), ("dataset_weights", .list (weighted ds)), ("worker_config", wc.config)]
  | .mix d _ => .dictOf [("type", .str "MixBatchDataset"), ("dataset", config d)]
  | .log d _ _ => config d
  | .gc d _ _ _ => config d
def configs : List Ds → List J
  | [] => []
  | d :: ds => config d :: configs ds
def weighted : List (Ds × Int) → List J
  | [] => []
  | (d, w) :: ds => .list [config d, .num w] :: weighted ds
end

/-! ### Factories and loaders -/

/-- How samples are made of the parts of the file: default_generic_webdataset.py:50-92 -/
inductive Loader where
  | fields (map : List (String × String))
  | function (f : Fn)

/-- default_decoder_webdataset.py, default_generic_webdataset.py, base_webdataset.py: the arguments of a factory -/
structure Factory where
  cls : String
  path : String
  training : Bool
  shuffleOver : Int
  parallel : Option Int
  maxSamples : Option Int
  subflavor : Option String
  subflavors : J
  loader : Loader
  partFilter : Fn
  autoDecode : Bool
  imageDecode : String
  ignoreErrors : Bool
  wc : WC

/-- default_generic_webdataset.py:93-100: whatever loads the sample, `_sample_loader` is a lambda made in `__init__` -/
def Factory.sampleLoader (f : Factory) : Fn :=
  { module := "megatron.energon.flavors.webdataset.default_generic_webdataset"
    qualname := "DefaultGenericWebdatasetFactory.__init__.<locals>.<lambda>"
    id := 0 }

/-- base_webdataset.py:184-192, default_generic_webdataset.py:109-115, default_decoder_webdataset.py:110-115 -/
def Factory.config (f : Factory) : J :=
  .dictOf [("type", .str f.cls), ("training", .bool f.training), ("path", .str f.path), ("shuffle_over_epochs", .num f.shuffleOver), ("parallel_shard_iters", .opt f.parallel),
    ("max_samples_per_sequence", .opt f.maxSamples), ("subflavor", .optStr f.subflavor), ("subflavors", f.subflavors), ("sample_loader", .str f.sampleLoader.text),
    ("image_decode", .str f.imageDecode), ("ignore_decoder_errors", .bool f.ignoreErrors)]

/-- base_webdataset.py:118-168 `build`, given the shards of the workers (C01-C06) and the excluded samples -/
def Factory.build (f : Factory) (shards : List (List (List Sub))) (exclude : List String) (onSample onError : Fn) : Ds :=
  .map (.reader shards f.wc exclude f.training (if f.training then some f.shuffleOver else none) (f.parallel.getD (if f.training then 16 else 1)) f.partFilter onError)
    ⟨"megatron.energon.flavors.webdataset.base_webdataset", "BaseWebdatasetFactory._load_sample_raw", 0⟩ (.call f.config) true onSample f.wc

/-- `Cooker` (task_encoder/cooking.py:18-29) -/
structure Cooker where
  cook : Fn
  isSubflavor : Option String
  hasSubflavors : J
  condition : Option Fn

/-- task_encoder/base.py:452-463 -/
def cookerConfig (cs : List Cooker) : J :=
  .dictOf [("cookers", .list (cs.map fun c => .dictOf [("cook", .str c.cook.text), ("is_subflavor", .optStr c.isSubflavor), ("has_subflavors", c.hasSubflavors),
    ("condition", match c.condition with | some f => .obj f.id | none => .null)]))]

/-- task_encoder/base.py:446-465 `build_cook_crude_sample` with registered cookers -/
def cookStage (d : Ds) (cs : List Cooker) (encoder : Fn) (handler : Fn) (wc : WC) : Ds := .map d encoder (.value (cookerConfig cs)) true handler wc

/-- savable_loader.py:1021-1031, 1173-1183: the config of a loader -/
def loaderConfig (cls : String) (numWorkers : Nat) (persistent pin : Bool) (prefetch : Int) (d : Ds) : J :=
  .dictOf [("type", .str cls), ("num_workers", .num numWorkers), ("persistent_workers", .bool persistent), ("pin_memory", .bool pin),
    ("prefetch_factor", if numWorkers = 0 then .null else .num prefetch), ("dataset", config d)]

mutual
/-- `json.dumps` does not raise -/
def J.dumps : J → Bool
  | .list l => dumpsAll l
  | .dict _ vals => dumpsAll vals
  | .obj _ => false
  | _ => true
def dumpsAll : List J → Bool
  | [] => true
  | j :: js => j.dumps && dumpsAll js
end

/-- savable_loader.py:755-765, 1088-1098, worker.py:238-262: with logging on, making a loader writes the config as JSON. `false`: `TypeError`, there is no loader -/
def loaderMade (logging : Bool) (d : Ds) : Bool := !logging || (config d).dumps

end Verif.Describe
