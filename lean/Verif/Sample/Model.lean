/-!
# Samples made from other samples

`flavors/base_dataset.py` (`extend`, `derive_from`, `from_joined`) and the conversions of the default task encoder (`task_encoder/base.py`).

Simplifications: values are opaque; classes have no `__init__` or `__post_init__` of their own (the generated one is modelled), and all fields are
`init` fields. `ClassVar`s are no fields (base_dataset.py:96 skips them again).
-/

namespace Verif.Sample

/-- A name of a field. -/
abbrev Name := String

/-- A declared field: its name and its default value, if it has one. -/
structure Decl (V : Type) where
  name : Name
  default : Option V

/-- What kind of class. `other`: anything that is no dataclass, `NamedTuple` or dict. -/
inductive Kind | dataclass | namedtuple | dict | other
deriving DecidableEq

/-- A class with its fields (inherited ones first, as `dataclasses.fields` gives them) and the names of its base classes, itself included. -/
structure Cls (V : Type) where
  name : Name
  kind : Kind
  decls : List (Decl V)
  bases : List Name

/-- An instance: its class and the values of its fields. For a dict: its items. -/
structure Inst (V : Type) where
  cls : Cls V
  fields : List (Name × V)

variable {V : Type}

/-- The value of a field (or item). -/
def get (l : List (Name × V)) (f : Name) : Option V := (l.find? (·.1 = f)).map (·.2)

/-- `d[f] = v` of a dict: an item keeps its place. -/
def put (l : List (Name × V)) (f : Name) (v : V) : List (Name × V) :=
  if l.any (·.1 = f) then l.map fun p => if p.1 = f then (f, v) else p else l ++ [(f, v)]

/-- `cls(**kw)` for a dataclass or `NamedTuple`: the declared fields, from `kw` or by default. `none`: `TypeError`. -/
def construct (c : Cls V) (kw : List (Name × V)) : Option (Inst V) :=
  if kw.all fun p => c.decls.any (·.name = p.1) then
    (c.decls.mapM fun d => ((get kw d.name).or d.default).map fun v => (d.name, v)).map fun fs => ⟨c, fs⟩
  else none

/-- base_dataset.py:69-103 `cls.extend(src, **kwargs)`. `none`: an exception. -/
def extend (c : Cls V) (src : Inst V) (kw : List (Name × V)) : Option (Inst V) :=
  -- line 92: `issubclass(cls, type(src))`
  if c.kind = .dataclass ∧ src.cls.name ∈ c.bases then
    construct c (src.fields.foldl (fun kw p => if (get kw p.1).isSome then kw else put kw p.1 p.2) kw)
  else none

/-- base_dataset.py:114-123: the fields of `Sample`. -/
def baseFields : List Name := ["__key__", "__restore_key__", "__subflavor__", "__subflavors__"]

/-- base_dataset.py:126-144 `cls.derive_from(base_sample, **kwargs)`. `getattr` raises if the sample lacks one of the fields, and a name that is given
twice is a `TypeError`. -/
def deriveFrom (c : Cls V) (base : Inst V) (kw : List (Name × V)) : Option (Inst V) :=
  match baseFields.mapM fun f => (get base.fields f).map fun v => (f, v) with
  | none => none
  | some bs => if kw.any fun p => decide (p.1 ∈ baseFields) then none else construct c (bs ++ kw)

/-- base_dataset.py:177-183: the fields of one part. -/
def addPart (acc : List (Name × V)) : Option (Inst V) → List (Name × V)
  | none => acc
  | some a => a.fields.foldl (fun acc p => if p.1 ∈ baseFields then acc else put acc p.1 p.2) acc

/-- base_dataset.py:147-184 `cls.from_joined(*args)`. -/
def fromJoined (c : Cls V) (args : List (Option (Inst V))) : Option (Inst V) :=
  match args with
  | [] => construct c []
  | none :: _ => none
  | some primary :: _ =>
    construct c (args.foldl addPart (primary.fields.foldl (fun acc p => put acc p.1 p.2) []))

/-- task_encoder/base.py:671-696 `DefaultTaskEncoder.encode_sample`, and 715-734 `encode_batch` with the test of line 718 in the place of the one of
line 676. `none`: an exception. `same`: the test. -/
def convert (target : Option (Cls V)) (same : Cls V → Bool) (x : Inst V) : Option (Inst V) :=
  match target with
  | none => some x
  | some c =>
    if same c then some x
    else if x.cls.kind = .other then none
    else match c.kind with
      | .dict => some ⟨c, x.fields⟩
      | .dataclass => construct c x.fields
      | .namedtuple => construct c x.fields
      | .other => none

/-- Line 676: `isinstance(sample, self._encoded_sample_type)`. -/
def encodeSample (target : Option (Cls V)) (x : Inst V) : Option (Inst V) :=
  convert target (fun c => decide (c.name ∈ x.cls.bases)) x

/-- Line 718: `self._raw_batch_type == self._batch_type`. -/
def encodeBatch (raw target : Option (Cls V)) (x : Inst V) : Option (Inst V) :=
  convert target (fun c => decide (raw.map (·.name) = some c.name)) x

end Verif.Sample
