import Verif.Config.FieldModel

/-!
# The dialog of `energon prepare`

Model of /repo src/megatron/energon/tools/prepare.py:244-388: what is written to dataset.yaml, for every sequence of answers of the user, and of the
checks when this file is loaded (flavors/webdataset/default_generic_webdataset.py:49-88, standard_webdataset.py:60-63). The parts found in the tar files
are the result of `prepare_dataset` (see `Verif.Prep`, `Verif.Wds`). Text output is left out.
-/

namespace Verif.Config

/-- prepare.py:326-331: the fields that are not asked for -/
def skippedNames : List Str := ["__key__".toList, "__restore_key__".toList, "__subflavor__".toList, "__subflavors__".toList]

/-- prepare.py:351-358: `type_ok`, the check of an answer. `option.split("[", 1)[0]` is what is before the first bracket. -/
def answerOk (found : List Str) (answer : Str) : Bool :=
  (answer.splitOn ',').all fun option => found.contains (option.takeWhile (· ≠ '['))

/-- prepare.py:333-360: the loop for one field; the result is the entry of the field map (`none`: deleted again) and the answers that are left.
`none`: the input ends (EOFError). -/
def askField (found : List Str) (f : FieldDecl) : List Str → Option (Option Str × List Str)
  | [] => none
  | a :: as =>
    if a = [] ∧ (f.default || f.factory) = true then some (none, as)
    else if answerOk found a then some (some a, as)
    else askField found f as

/-- prepare.py:324-360: the loop over the fields -/
def askFields (found : List Str) : List FieldDecl → List Str → Option (List (Str × Str) × List Str)
  | [], as => some ([], as)
  | f :: fs, as =>
    if f.name ∈ skippedNames then askFields found fs as
    else
      match askField found f as with
      | none => none
      | some (r, as') =>
        match askFields found fs as' with
        | none => none
        | some (m, as'') => some ((match r with | none => m | some a => (f.name, a) :: m), as'')

/-- The sample type chosen by the user: a class of `megatron.energon`, or the entry for crude samples (prepare.py:248-258) -/
inductive Chosen where
  | cls (name : Str) (fields : List FieldDecl)
  | crude

/-- dataset.yaml as written: prepare.py:284-289, 322, 380-381, 384-385 -/
structure Definition where
  sampleType : Str
  fieldMap : Option (List (Str × Str)) := none
  sampleLoader : Option Str := none
  partFilter : Option Str := none
deriving DecidableEq

/-- prepare.py:230-237, 284-385: what is written. `wantMap` is the answer to "Do you want to set a simple field_map", which is asked only if at most 10
parts were found. -/
def define (found : List Str) (chosen : Chosen) (wantMap : Bool) (answers : List Str) : Option Definition :=
  match chosen with
  | .crude => some { sampleType := "CrudeSampleDummy".toList }
  | .cls name fields =>
    if found.length ≤ 10 ∧ wantMap = true then
      match askFields found fields answers with
      | none => none
      | some (m, _) => some { sampleType := name, fieldMap := some m }
    else
      some { sampleType := name, sampleLoader := some "sample_loader.py:sample_loader".toList, partFilter := some "sample_loader.py:part_filter".toList }

/-- prepare.py:69: the function `part_filter` of the written sample_loader.py; `parts` as in lines 362-365 -/
def templateFilter (found : List Str) (part : Str) : Bool :=
  (if 10 < found.length then ["TODO".toList] else found).contains part

/-- Loading dataset.yaml: `getattr` of the sample type in `megatron.energon` (`classes`), then default_generic_webdataset.py:49-88. For `sample_loader`
only the presence of `part_filter` is checked here (loading the functions: `Verif.Code`). -/
def createDs (classes : Str → Option (List FieldDecl)) (d : Definition) : Bool :=
  match classes d.sampleType with
  | none => false
  | some cls =>
    match d.fieldMap, d.sampleLoader with
    | none, none => false
    | some _, some _ => false
    | none, some _ => d.partFilter.isSome
    | some m, none => d.partFilter.isNone && acceptMap cls m

end Verif.Config
