import Verif.Describe.Model

/-!
# C115: what `config()` tells

`Told` lists, for each kind of dataset, the settings that can be read off the config. `told` forgets the others:
* the reader: which parts of the files are read (`part_filter`) and what happens with errors (`handler`),
* the offset of the seeds of the worker configuration; for `MapDataset`, `FilterDataset`, `IterMapDataset`, `ConcatDataset` the worker configuration as a whole (it is that of the source, C112),
* `MapDataset`: the handler of errors, `IterMapDataset`: whether the function is stateless,
* `GroupBatchDataset`: the batch size,
* of functions, everything except for the text `module.qualname`,
* that there is `LogSampleDataset` or `GcDataset` (they do not change the samples, C10, C34).
-/

namespace Verif.Describe

structure ToldWorker where
  rank : Nat
  worldSize : Nat
  numWorkers : Nat
  group : Option Nat

inductive Told where
  | reader (shards : List (List (List Sub))) (wc : ToldWorker) (exclude : List String) (loop : Bool) (shuffleOver : Option Int) (parallel : Int)
  | map (d : Told) (fn : String) (cfg : Option J) (stateless : Bool)
  | filter (d : Told) (fn : String) (cfg : Option J)
  | iterMap (d : Told) (fn : String) (cfg : Option J) (len handler : String)
  | batch (d : Told) (size : Int) (batcher : String) (cfg : Option J) (stateless dropLast : Bool) (handler : String) (wc : ToldWorker)
  | group (d : Told) (key batcher : String) (cfg : Option J) (stateless dropLast : Bool) (handler : String) (wc : ToldWorker)
  | pack (d : Told) (size : Int) (pre final : String) (stateless : Bool) (cfg : Option J) (handler : String) (wc : ToldWorker)
  | limit (d : Told) (length : Int) (reset : Bool) (wc : ToldWorker)
  | repeat (d : Told) (repeats : Option Int) (wc : ToldWorker)
  | epochize (d : Told) (length : Int) (wc : ToldWorker)
  | shuffle (d : Told) (size : Int) (wc : ToldWorker)
  | concat (ds : List Told)
  | blend (ds : List (Told × Int)) (wc : ToldWorker)
  | mix (d : Told)

def WC.told (w : WC) : ToldWorker := ⟨w.rank, w.worldSize, w.numWorkers, w.group⟩

/-- A function is told by its module and name -/
def Fn.told (f : Fn) : String := f.module ++ "." ++ f.qualname

/-- A function returning a config is called; a value is left out if it is `None`, `False`, `0` or empty -/
def Cfg.told : Cfg → Option J
  | .call j => some j
  | .value .null => none
  | .value (.bool false) => none
  | .value (.num 0) => none
  | .value (.str "") => none
  | .value (.list []) => none
  | .value (.dict [] _) => none
  | .value j => some j

mutual
def Ds.told : Ds → Told
  | .reader shards wc exclude loop shuffleOver parallel _ _ => .reader shards wc.told exclude loop shuffleOver parallel
  | .map d fn cfg stateless _ _ => .map d.told fn.told cfg.told stateless
  | .filter d fn cfg _ => .filter d.told fn.told cfg.told
  | .iterMap d fn cfg len handler _ _ => .iterMap d.told fn.told cfg.told len.told handler.told
  | .batch d size batcher cfg stateless dropLast handler wc => .batch d.told size batcher.told cfg.told stateless dropLast handler.told wc.told
  | .group d _ key batcher cfg stateless dropLast handler wc => .group d.told key.told batcher.told cfg.told stateless dropLast handler.told wc.told
  | .pack d size pre final stateless cfg handler wc => .pack d.told size pre.told final.told stateless cfg.told handler.told wc.told
  | .limit d length reset wc => .limit d.told length reset wc.told
  | .repeat d repeats wc => .repeat d.told repeats wc.told
  | .epochize d length wc => .epochize d.told length wc.told
  | .shuffle d size wc => .shuffle d.told size wc.told
  | .concat ds _ => .concat (toldAll ds)
  | .blend ds wc => .blend (toldParts ds) wc.told
  | .mix d _ => .mix d.told
  | .log d _ _ => d.told
  | .gc d _ _ _ => d.told
def toldAll : List Ds → List Told
  | [] => []
  | d :: ds => d.told :: toldAll ds
def toldParts : List (Ds × Int) → List (Told × Int)
  | [] => []
  | (d, w) :: ds => (d.told, w) :: toldParts ds
end

mutual
/-- The configs that user code and factories add -/
def Ds.added : Ds → List J
  | .reader .. => []
  | .map d _ c _ _ _ => c.told.toList ++ d.added
  | .filter d _ c _ => c.told.toList ++ d.added
  | .iterMap d _ c _ _ _ _ => c.told.toList ++ d.added
  | .batch d _ _ c _ _ _ _ => c.told.toList ++ d.added
  | .group d _ _ _ c _ _ _ _ => c.told.toList ++ d.added
  | .pack d _ _ _ _ c _ _ => c.told.toList ++ d.added
  | .limit d _ _ _ => d.added
  | .repeat d _ _ => d.added
  | .epochize d _ _ => d.added
  | .shuffle d _ _ => d.added
  | .concat ds _ => addedAll ds
  | .blend ds _ => addedParts ds
  | .mix d _ => d.added
  | .log d _ _ => d.added
  | .gc d _ _ _ => d.added
def addedAll : List Ds → List J
  | [] => []
  | d :: ds => d.added ++ addedAll ds
def addedParts : List (Ds × Int) → List J
  | [] => []
  | (d, _) :: ds => d.added ++ addedParts ds
end

mutual
/-- Without the wrappers that do not change the samples -/
def Ds.bare : Ds → Ds
  | .reader shards wc exclude loop shuffleOver parallel pf h => .reader shards wc exclude loop shuffleOver parallel pf h
  | .map d fn cfg stateless h wc => .map d.bare fn cfg stateless h wc
  | .filter d fn cfg wc => .filter d.bare fn cfg wc
  | .iterMap d fn cfg len h s wc => .iterMap d.bare fn cfg len h s wc
  | .batch d size batcher cfg stateless dropLast h wc => .batch d.bare size batcher cfg stateless dropLast h wc
  | .group d fixed key batcher cfg stateless dropLast h wc => .group d.bare fixed key batcher cfg stateless dropLast h wc
  | .pack d size pre final stateless cfg h wc => .pack d.bare size pre final stateless cfg h wc
  | .limit d length reset wc => .limit d.bare length reset wc
  | .repeat d repeats wc => .repeat d.bare repeats wc
  | .epochize d length wc => .epochize d.bare length wc
  | .shuffle d size wc => .shuffle d.bare size wc
  | .concat ds wc => .concat (bareAll ds) wc
  | .blend ds wc => .blend (bareParts ds) wc
  | .mix d wc => .mix d.bare wc
  | .log d _ _ => d.bare
  | .gc d _ _ _ => d.bare
def bareAll : List Ds → List Ds
  | [] => []
  | d :: ds => d.bare :: bareAll ds
def bareParts : List (Ds × Int) → List (Ds × Int)
  | [] => []
  | (d, w) :: ds => (d.bare, w) :: bareParts ds
end

end Verif.Describe
