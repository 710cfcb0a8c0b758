import Mathlib.Data.Rat.Floor
import Mathlib.Algebra.BigOperators.Group.List.Basic

/-!
# Metadatasets

Source: /repo src/megatron/energon/metadataset/{metadataset,metadataset_v2,dataset_loader,join_dataset_loader}.py, dataset_config.py.

Both versions of metadatasets have the same blending and references; version 1 has no joins. Weights are rational numbers instead of
floating point numbers. Paths are resolved beforehand (`prepare`): a reference contains what it refers to. Files that do not exist, and
strictness of the configuration parser, are not modelled.
-/

namespace Verif.Meta

variable {V : Type}

/-- A Python dict with string keys (the order is not modelled) -/
abbrev Dict (V : Type) := String → Option V

/-- `{**inner, **outer}` -/
def Dict.merge (inner outer : Dict V) : Dict V := fun k => (outer k).or (inner k)

/-- metadataset_v2.py:18-30, dataset_loader.py:15-25: the options of a reference or a loader -/
structure Opts (V : Type) where
  splitPart : Option String := none
  subflavor : Option String := none
  subflavors : Option (Dict V) := none
  multiplier : Int := 1
  splitConfig : String := "split.yaml"

/-- `.nv-meta/dataset.yaml` of a dataset: its identity and the options it may set -/
structure Yaml (V : Type) where
  id : Nat
  splitPart : Option String := none
  subflavor : Option String := none
  subflavors : Option (Dict V) := none

mutual
/-- Everything with a method `get_datasets`. -/
inductive Loader (V : Type) where
  /-- `DatasetLoader` -/
  | data (o : Opts V) (y : Yaml V)
  /-- `MetadatasetJoin`, with its `JoinDatasetLoader`, of `DatasetLoader`s -/
  | join (o : Opts V) (cols : List (Opts V × Yaml V))
  /-- `DatasetReference` to a dataset (then the inner loader is `data` with the same options, `Loader.ref`) or a metadataset file -/
  | ref (o : Opts V) (inner : Loader V)
  /-- `MetadatasetBlender`, `MetadatasetBlend` -/
  | blend (l : Blend V)
  /-- `Metadataset`, `MetadatasetV2`: one entry per split -/
  | splits (l : Splits V)
inductive Blend (V : Type) where
  | nil
  | cons (w : ℚ) (x : Loader V) (l : Blend V)
inductive Splits (V : Type) where
  | nil
  | cons (name : String) (x : Loader V) (l : Splits V)
end

/-- metadataset_v2.py:44-53: a reference to a dataset -/
def Loader.refData (o : Opts V) (y : Yaml V) : Loader V := .ref o (.data o y)

/-- Arguments of `get_datasets` and `get_dataset` -/
structure Args (V : Type) where
  splitPart : String
  subflavor : Option String := none
  subflavors : Option (Dict V) := none
  multiplier : Int := 1

/-- A dataset as it is constructed: dataset_config.py:94-110 -/
structure Ds (V : Type) where
  id : Nat
  splitPart : String
  subflavor : Option String
  subflavors : Option (Dict V)
  splitConfig : String

/-- A built dataset: the joined columns (one if not joined), and `shuffle_over_epochs` -/
structure Built (V : Type) where
  cols : List (Ds V)
  shuffle : Int

/-- Python's `a or b` for strings -/
def orStr (a b : Option String) : Option String :=
  match a with
  | some s => if s = "" then b else some s
  | none => b

/-- `{**self.subflavors, **(subflavors or {})}` if `self.subflavors is not None` -/
def mergeOpt (self outer : Option (Dict V)) : Option (Dict V) :=
  match self with
  | some d => some (d.merge (outer.getD fun _ => none))
  | none => outer

/-- dataset_config.py:94-110: what the dataset.yaml sets overrides the arguments, except for the subflavors, where the arguments win key
by key. -/
def fromConfig (y : Yaml V) (splitPart : String) (subflavor : Option String) (subflavors : Option (Dict V)) (splitConfig : String) : Ds V :=
  { id := y.id
    splitPart := y.splitPart.getD splitPart
    subflavor := match y.subflavor with | some s => some s | none => subflavor
    subflavors := match y.subflavors with | none => subflavors | some d => some (d.merge (subflavors.getD fun _ => none))
    splitConfig := splitConfig }

/-- dataset_loader.py:26-76 `DatasetLoader.get_dataset` -/
def loadData (o : Opts V) (y : Yaml V) (a : Args V) (splitConfig : Option String) : Ds V :=
  fromConfig y (o.splitPart.getD a.splitPart) (match a.subflavor with | some s => some s | none => o.subflavor)
    (mergeOpt o.subflavors a.subflavors) (splitConfig.getD o.splitConfig)

/-- join_dataset_loader.py:32-112 `JoinDatasetLoader.get_dataset`: the columns -/
def loadJoin (o : Opts V) (cols : List (Opts V × Yaml V)) (a : Args V) : List (Ds V) :=
  let a : Args V :=
    { splitPart := o.splitPart.getD a.splitPart
      subflavor := match a.subflavor with | some s => some s | none => o.subflavor
      subflavors := mergeOpt o.subflavors a.subflavors
      multiplier := a.multiplier }
  cols.map fun c => loadData c.1 c.2 a (some o.splitConfig)

/-- metadataset_v2.py:57-79: the arguments a reference passes on -/
def Args.through (a : Args V) (o : Opts V) : Args V :=
  { splitPart := (orStr o.splitPart (some a.splitPart)).getD a.splitPart
    subflavor := orStr a.subflavor o.subflavor
    subflavors := mergeOpt o.subflavors a.subflavors
    multiplier := a.multiplier * o.multiplier }

/-- `sum(dataset.weight for dataset in self.blend)` -/
def Blend.total : Blend V → ℚ
  | .nil => 0
  | .cons w _ l => w + l.total

mutual
/-- `get_datasets`: dataset_loader.py:76-100, join_dataset_loader.py:112-136, metadataset_v2.py:57-79, 142-166, 236-258; `none`: an
exception (`KeyError` for an unknown split). -/
def Loader.get : Loader V → Args V → Option (List (Built V × ℚ))
  | .data o y, a => some [(⟨[loadData o y a none], a.multiplier⟩, 1)]
  | .join o cols, a => some [(⟨loadJoin o cols a, a.multiplier⟩, 1)]
  | .ref o x, a => x.get (a.through o)
  | .blend l, a => l.get l.total a
  | .splits l, a => l.get a.splitPart a
/-- metadataset_v2.py:199-222, metadataset.py:93-115; `sum` is `sum_weight`; a division by zero is an exception. -/
def Blend.get : Blend V → ℚ → Args V → Option (List (Built V × ℚ))
  | .nil, _, _ => some []
  | .cons w x l, sum, a =>
    match x.get a, l.get sum a with
    | some r, some rs => if sum = 0 ∧ r ≠ [] then none else some (r.map (fun p => (p.1, p.2 * w / sum)) ++ rs)
    | _, _ => none
/-- `self.splits[split_part]` -/
def Splits.get : Splits V → String → Args V → Option (List (Built V × ℚ))
  | .nil, _, _ => none
  | .cons n x l, s, a => if n = s then x.get a else l.get s a
end

end Verif.Meta
