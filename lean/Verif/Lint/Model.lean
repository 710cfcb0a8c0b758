/-!
# The error handler of a dataset, and `energon lint`

Source: /repo src/megatron/energon/flavors/webdataset/error_handler.py, single_shard_reader.py:170-214, base_webdataset.py:155-177,
wrappers/map_dataset.py:138-173, tools/lint.py.

A dataset is given by the outcomes of reading and loading its samples: which exceptions are raised depends on the files and on the user's
code. Modelled is what happens with these exceptions. Not modelled: the stages after the loading of the samples (the task encoder and the
batching have handlers of their own, which only log).
-/

namespace Verif.Lint

/-- An exception: one of `SYSTEM_EXCEPTIONS` (errors.py:76-88) or another one (`e` tells which) -/
inductive Fault where
  | error (e : Nat)
  | fatal
deriving DecidableEq

/-- What `load_sample` (with the decoder) does -/
inductive Load where
  | ok
  /-- it raises `SkipSample` -/
  | skip
  | fault (f : Fault)
deriving DecidableEq

/-- A sample of a shard: its key, for each of its files whether reading it raises, and what loading it does -/
structure Smp where
  key : String
  parts : List (Option Fault)
  load : Load
deriving DecidableEq

/-- A call of the user's `handler(exception, key)` -/
abbrev Call := Nat × Option String

/-- The element of a list given to `error_handler` -/
inductive Elem where
  | none
  /-- a dict, with its `__key__` if it has one -/
  | dict (key : Option String)
  /-- a `Sample` -/
  | sample (key : String)
deriving DecidableEq

/-- What can be given to `error_handler` as the failing sample -/
inductive Given where
  | dict (key : Option String)
  | sample (key : String)
  | list (l : List Elem)
  | tuple (l : List Elem)
  | none
deriving DecidableEq

/-- `",".join(...)` -/
def joinKeys : List String → String
  | [] => ""
  | [k] => k
  | k :: l => k ++ "," ++ joinKeys l

/-- error_handler.py:37, 39: the keys of the elements; `none`: `AttributeError`, or `TypeError` for a dict without key -/
def elemKey (dicts : Bool) : Elem → Option String
  | .none => some "None"
  | .dict k => if dicts then k else Option.none
  | .sample k => if dicts then Option.none else some k

/-- error_handler.py:33-46: the key passed on; outer `none`: an exception. -/
def handlerKey : Given → Option (Option String)
  | .dict k => some k
  | .sample k => some (some k)
  | .list [] => Option.none
  | .list (.dict k :: l) => ((Elem.dict k :: l).mapM (elemKey true)).map fun ks => some (joinKeys ks)
  | .list (.sample k :: l) => ((Elem.sample k :: l).mapM (elemKey false)).map fun ks => some (joinKeys ks)
  | .list (.none :: _) => some Option.none
  | .tuple _ => some Option.none
  | .none => some Option.none

/-- single_shard_reader.py:170-211: reading the files of the sample `key`; a failing file is left out. The calls of the handler, and
whether a `FatalSampleError` is raised. -/
def readParts (key : String) : List (Option Fault) → List Call × Bool
  | [] => ([], false)
  | none :: l => readParts key l
  | some (.error e) :: l => ((e, some key) :: (readParts key l).1, (readParts key l).2)
  | some .fatal :: _ => ([], true)

/-- The result of a run over samples: the calls of the handler, the samples delivered, and whether it ends with `FatalSampleError` -/
structure Run where
  calls : List Call
  out : List Smp
  fatal : Bool
deriving DecidableEq

/-- One sample: single_shard_reader.py:170-211, then map_dataset.py:138-173 with base_webdataset.py:155-177; the sample given to
`error_handler` is the tuple of raw samples (sample_loader.py:265). -/
def loadOne (s : Smp) : Run :=
  match readParts s.key s.parts with
  | (c, true) => ⟨c, [], true⟩
  | (c, false) =>
    match s.load with
    | .ok => ⟨c, [s], false⟩
    | .skip => ⟨c, [], false⟩
    | .fault .fatal => ⟨c, [], true⟩
    | .fault (.error e) =>
      match handlerKey (.tuple [.dict (some s.key)]) with
      | some k => ⟨c ++ [(e, k)], [], false⟩
      | none => ⟨c, [], true⟩

/-- All samples of one process, up to the first `FatalSampleError` -/
def loadAll : List Smp → Run
  | [] => ⟨[], [], false⟩
  | s :: l =>
    let r := loadOne s
    if r.fatal then r
    else
      let t := loadAll l
      ⟨r.calls ++ t.calls, r.out ++ t.out, t.fatal⟩

/-! ## `energon lint` -/

/-- lint.py:73-75: the variables `failed` and `ignore_list` -/
structure Mem where
  failed : Bool
  ignored : List String
deriving DecidableEq

/-- lint.py:77-82 `handler` -/
def Mem.handle (m : Mem) (c : Call) : Mem := ⟨true, m.ignored ++ c.2.toList⟩

/-- The memory of the processes: number 0 is the main process, `w + 1` the worker process `w` -/
abbrev Procs := Nat → Mem

/-- The handler is called in process `p`. -/
def Procs.handle (ps : Procs) (p : Nat) (cs : List Call) : Procs := fun q => if q = p then cs.foldl Mem.handle (ps p) else ps q

/-- The worker processes are started: they get a copy of the memory of the main process. -/
def Procs.fork (ps : Procs) : Procs := fun _ => ps 0

/-- The worker processes number `w`, `w + 1`, ... go through their samples; their memories are separate, so their order does not matter. -/
def workers : Nat → List (List Smp) → Procs → Procs × Bool
  | _, [], ps => (ps, false)
  | w, l :: ls, ps =>
    let r := loadAll l
    let t := workers (w + 1) ls (ps.handle (w + 1) r.calls)
    (t.1, r.fatal || t.2)

/-- lint.py:106-113: the loop over the loader with `n` worker processes; without them the samples are loaded in the main process. `deal`
says which worker gets which samples. The second component: the loop raises. -/
def runSplit (deal : Nat → List Smp → List (List Smp)) (n : Nat) (l : List Smp) (ps : Procs) : Procs × Bool :=
  if n = 0 then (ps.handle 0 (loadAll l).calls, (loadAll l).fatal)
  else workers 0 (deal n l) ps.fork

/-- A part of the split -/
inductive Split where
  /-- it is not in `split.yaml` -/
  | missing
  /-- without shards -/
  | noShards
  | shards (l : List Smp)

/-- What `lint` sees: the kind of the path, `shard_counts` of `.info.yaml`, the number of entries of the index of each shard (`none`: it
cannot be read), and the parts of the split -/
structure Disk where
  isDir : Bool
  counts : List (String × Nat)
  index : String → Option Nat
  split : String → Split

inductive Verdict where
  /-- exit code 0 -/
  | ok
  /-- `ClickException`, with the samples listed before -/
  | failed (listed : List String)
  /-- another exception: a traceback -/
  | crash
deriving DecidableEq

/-- lint.py:30-40, the loop over the shards; `none`: an exception -/
def checkShards (index : String → Option Nat) : List (String × Nat) → Option Bool
  | [] => some true
  | (name, count) :: l =>
    match index name with
    | none => none
    | some n => (checkShards index l).map fun ok => ((n : Int) - 1 == (count : Int)) && ok

/-- lint.py:18-40 `check_index`; without a directory it returns `None`, which is treated like `False`. -/
def checkIndex (d : Disk) : Option Bool := if d.isDir then checkShards d.index d.counts else some false

/-- lint.py:91-122, the loop over the parts. Any exception of `get_val_dataset` ends it: `BaseWebdatasetFactory` has no attribute
`EmptyDatasetError` (lines 102-104), so the `except` clause itself raises. -/
def lintSplits (d : Disk) (deal : Nat → List Smp → List (List Smp)) (n : Nat) : List String → Procs → Verdict
  | [], ps => if (ps 0).failed then .failed (ps 0).ignored else .ok
  | sp :: sps, ps =>
    match d.split sp with
    | .missing => .crash
    | .noShards => .crash
    | .shards l =>
      match runSplit deal n l ps with
      | (_, true) => .failed []
      | (ps, false) => lintSplits d deal n sps ps

/-- lint.py:60-124 `command`; `n` is `--parallel`, `sps` the names of `--split-parts` -/
def lint (d : Disk) (deal : Nat → List Smp → List (List Smp)) (n : Nat) (sps : List String) : Verdict :=
  match checkIndex d with
  | none => .crash
  | some false => .failed []
  | some true => lintSplits d deal n sps (fun _ => ⟨false, []⟩)

end Verif.Lint
