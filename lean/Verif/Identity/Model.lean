import Verif.Sample.Props

/-!
# What a sample says about itself

From the files of a sample to the loaded sample: single_shard_reader.py:145-204 (the dict of the reader), flavors/webdataset/default_decoder_webdataset.py:104-107,
default_generic_webdataset.py:34-104 (the sample loader), flavors/crude.py, task_encoder/cooking.py:66-75.

Simplifications: a value is anything of a type `V`. The decoder works file by file. Files are those read (accepted by `part_filter`, readable), named by
what follows the first dot (`Verif.Wds` models which files of a tar file these are). No other exceptions than those of the decoder, the sample loader and
the constructor of the sample class.
-/

namespace Verif.Identity

open Verif.Sample

variable {V : Type}

/-- A dict -/
abbrev Dict (V : Type) := List (Name × V)

/-- What the reader knows about the sample: `_cur_key`, `shard.name`, `("Webdataset", shard.name, offset)`. -/
structure Where (V : Type) where
  key : V
  shard : V
  restoreKey : V

/-- single_shard_reader.py:161-204: the dict of `read_next`; `parts` are the files in the order of the tar file. -/
def group (w : Where V) (parts : Dict V) : Dict V :=
  parts.foldl (fun g p => put g p.1 p.2) [("__key__", w.key), ("__shard__", w.shard), ("__restore_key__", w.restoreKey)]

/-- The decoder, applied to every item; it may raise. -/
def decodeAll (dec : Name → V → Option V) (d : Dict V) : Option (Dict V) := d.mapM fun p => (dec p.1 p.2).map fun v => (p.1, v)

/-- A dataset of `DefaultGenericWebdatasetFactory`: its sample class, decoder (`fun _ v => some v` without `auto_decode`), sample loader, part filter and
subflavors. `none`: an exception. -/
structure Factory (V : Type) where
  cls : Cls V
  dec : Name → V → Option V
  loader : Dict V → Option (Dict V)
  filter : Name → Bool
  subflavor : V
  subflavors : V

/-- default_generic_webdataset.py:94-101: the sample loader with the basic fields around. Entries of a dict display replace earlier ones. -/
def Factory.sampleLoader (F : Factory V) (d : Dict V) : Option (Dict V) :=
  match get d "__key__", F.loader d, get d "__restore_key__" with
  | some k, some inner, some r =>
    some (put (put (put (inner.foldl (fun acc p => put acc p.1 p.2) [("__key__", k)]) "__restore_key__" r) "__subflavor__" F.subflavor) "__subflavors__" F.subflavors)
  | _, _, _ => none

/-- `cls(**kw)`: a dict class takes everything. -/
def make (c : Cls V) (kw : Dict V) : Option (Inst V) := if c.kind = .dict then some ⟨c, kw⟩ else construct c kw

/-- The sample made from the files `parts` of the tar file: reader with `part_filter` (single_shard_reader.py:203), decoder
(default_decoder_webdataset.py:104-107), `load_sample` (default_generic_webdataset.py:106-107). -/
def Factory.load (F : Factory V) (w : Where V) (parts : Dict V) : Option (Inst V) :=
  (decodeAll F.dec (group w (parts.filter fun p => F.filter p.1))).bind fun d => (F.sampleLoader d).bind (make F.cls)

/-- flavors/crude.py:12-13 `class CrudeSample(dict)` -/
def crudeCls : Cls V := ⟨"CrudeSample", .dict, [], ["CrudeSample", "dict"]⟩

/-- flavors/crude.py:50-60: `sample_loader=lambda sample: sample`. -/
def crude (dec : Name → V → Option V) (filter : Name → Bool) (subflavor subflavors : V) : Factory V :=
  ⟨crudeCls, dec, some, filter, subflavor, subflavors⟩

/-- cooking.py:66-75 `basic_sample_keys` -/
def basicSampleKeys (d : Dict V) : Dict V := baseFields.filterMap fun f => (get d f).map fun v => (f, v)

/-- A cooker as documented: `return C(**basic_sample_keys(sample), field=…, …)`. A name that is given twice is a `TypeError`. -/
def cook (c : Cls V) (fields : Dict V → Dict V) (s : Inst V) : Option (Inst V) :=
  if (fields s.fields).any fun p => (basicSampleKeys s.fields).any fun q => decide (q.1 = p.1) then none
  else make c (basicSampleKeys s.fields ++ fields s.fields)

end Verif.Identity
