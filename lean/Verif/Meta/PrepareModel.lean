import Verif.Meta.Model
import Verif.Path.Model

/-!
# Loading the files of a metadataset

Source: /repo src/megatron/energon/metadataset/{loader,metadataset,metadataset_v2}.py, task_encoder/loader.py, dataset_config.py:20-51.

`Verif.Meta.Model` starts from references that contain what they refer to. Here the references are strings, and the files they lead to are
read. Simplifications: both versions of metadatasets are one type (version 1 has no joins, and every split is a blend); a file that is read as
a metadataset is one (YAML and the checks of the configuration parser are modelled in `Verif.Config`); the `dataset.yaml` of a dataset is
looked up here, while the program reads it in `get_datasets`.
-/

namespace Verif.Meta

open Verif.Path

variable {V : Type}

/-- metadataset_v2.py:18-30, 82-97, 113-124: a reference, or a join of references, as written in the file. The `String` is `dataset_config`. -/
inductive Item (V : Type) where
  | ref (path : Str) (o : Opts V) (dc : String)
  | join (o : Opts V) (dc : String) (cols : List (Str × Opts V × String))

/-- metadataset_v2.py:181-187, 224: what is given for a split: a blend, or a single reference or join -/
inductive Split (V : Type) where
  | one (i : Item V)
  | blend (l : List (ℚ × Item V))

/-- A metadataset file: the splits by name -/
abbrev File (V : Type) := List (String × Split V)

/-- What is found at a path -/
inductive Node (V : Type) where
  | file (f : File V)
  /-- a directory with `.nv-meta/.info.yaml`, and its `dataset_config` files -/
  | dataset (yaml : String → Yaml V)
  | nothing

/-- The file systems, local and remote -/
abbrev Disk (V : Type) := EPath → Node V

/-- metadataset_v2.py:82-97 `JoinDatasetReference.prepare`: only datasets; `none`: an exception -/
def prepareCol (A : Disk V) (parent : EPath) (c : Str × Opts V × String) : Option (Opts V × Yaml V) :=
  match parent.divStr c.1 with
  | none => none
  | some q =>
    match A q with
    | .dataset y => some (c.2.1, y c.2.2)
    | _ => none

/-- metadataset_v2.py:31-53, 125-153; metadataset.py:30-52. `load` reads a metadataset file. -/
def prepareItem (A : Disk V) (load : EPath → Option (Loader V)) (parent : EPath) : Item V → Option (Loader V)
  | .ref path o dc =>
    match parent.divStr path with
    | none => none
    | some q =>
      match A q with
      | .file _ => if dc = "dataset.yaml" ∧ o.splitConfig = "split.yaml" then (load q).map (.ref o) else none
      | .dataset y => some (.refData o (y dc))
      | .nothing => none
  | .join o dc cols =>
    if dc = "dataset.yaml" then (cols.mapM (prepareCol A parent)).map (.join o) else none

/-- metadataset_v2.py:190-193, metadataset.py:86-89 -/
def prepareBlend (A : Disk V) (load : EPath → Option (Loader V)) (parent : EPath) : List (ℚ × Item V) → Option (Blend V)
  | [] => some .nil
  | (w, i) :: b =>
    match prepareItem A load parent i, prepareBlend A load parent b with
    | some x, some l => some (.cons w x l)
    | _, _ => none

/-- metadataset_v2.py:226-232: all splits are prepared -/
def prepareSplits (A : Disk V) (load : EPath → Option (Loader V)) (parent : EPath) : File V → Option (Splits V)
  | [] => some .nil
  | (name, .one i) :: f =>
    match prepareItem A load parent i, prepareSplits A load parent f with
    | some x, some l => some (.cons name x l)
    | _, _ => none
  | (name, .blend b) :: f =>
    match prepareBlend A load parent b, prepareSplits A load parent f with
    | some x, some l => some (.cons name (.blend x) l)
    | _, _ => none

/-- metadataset.py:119-133, metadataset_v2.py:226-232, dataset_config.py:20-51: a metadataset file is read and all its splits are prepared,
with the directory of the file as `parent_path`. The number bounds the depth: for references in a circle the program ends with a
`RecursionError`. `none`: an exception. -/
def loadFile (A : Disk V) : Nat → EPath → Option (Loader V)
  | 0, _ => none
  | n + 1, p =>
    match A p with
    | .file f => (prepareSplits A (loadFile A n) p.parent f).map .splits
    | _ => none

/-- The keyword arguments of `get_train_dataset` and `get_val_dataset` that choose the data. `none`: not given. -/
structure Kw (V : Type) where
  subflavor : Option (Option String) := none
  datasetConfig : Option String := none
  splitConfig : Option String := none
  subflavors : Option (Dict V) := none

/-- task_encoder/loader.py:15-33 `_split_kwargs`: is something given that is passed to `load_dataset`? (`split_part` is a parameter of its
own and never among the keyword arguments.) -/
def Kw.forLoader (k : Kw V) : Bool := k.subflavor.isSome || k.datasetConfig.isSome || k.splitConfig.isSome

/-- metadataset/loader.py:14-36 `load_dataset` of an absolute path, with the keyword arguments selected by `_split_kwargs`. For a file they are
given to the constructor of the metadataset, which has no such parameters: with `strict=True` an exception. A path that is no file is taken for
a dataset; if there is none, `get_datasets` raises (dataset_config.py:85-91). -/
def loadDataset (A : Disk V) (n : Nat) (p : EPath) (k : Kw V) : Option (Loader V) :=
  match A p with
  | .file _ => if k.forLoader then none else loadFile A n p
  | .dataset y =>
    some (.data { subflavor := k.subflavor.getD none, splitConfig := k.splitConfig.getD "split.yaml" } (y (k.datasetConfig.getD "dataset.yaml")))
  | .nothing => none

/-- task_encoder/loader.py:80-88, 140-143: the datasets `get_train_dataset` and `get_val_dataset` are made of -/
def getDatasets (A : Disk V) (n : Nat) (p : EPath) (splitPart : String) (multiplier : Int) (k : Kw V) : Option (List (Built V × ℚ)) :=
  (loadDataset A n p k).bind fun x => x.get { splitPart := splitPart, subflavors := k.subflavors, multiplier := multiplier }

end Verif.Meta
