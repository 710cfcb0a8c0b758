import Verif.Wds.ReaderModel
import Verif.Prep.Model

/-!
# What `energon prepare` finds in the shards

Model of /repo src/megatron/energon/flavors/webdataset/prepare.py:43-104 (`_preprocess_tar`: the kinds of parts, failures), 106-148
(`iter_dataset_content`) and 203-211 (the results of all shards). The index file itself: `Verif.Wds.ReaderModel` and `Verif.Io.IndexModel`.
-/

namespace Verif.Wds

variable {B : Type}

/-- `set.add` -/
def setAdd (x : Name) (s : List Name) : List Name := if x ∈ s then s else s ++ [x]

/-- prepare.py:76, 92-94: the set `parts` -/
def partsLoop (maxParts : Nat) : List Name → List (Member B) → List Name
  | parts, [] => parts
  | parts, m :: l =>
    match m.part with
    | none => partsLoop maxParts parts l
    | some (_, ext) => partsLoop maxParts (if parts.length < maxParts then setAdd ext parts else parts) l

/-- Where an exception occurs while a shard is processed: before line 101 (opening and reading the file, starting the index), or at the end, when the
rest of the index is written and the index is renamed (line 102 and `TarIndexWriter.__exit__`) -/
inductive ScanFail where
  | reading
  | closing
deriving DecidableEq

/-- The result for one shard: `shard_info.count`, the parts, and whether there is a new index file afterwards -/
structure Scanned where
  count : Nat
  parts : List Name
  indexed : Bool
deriving DecidableEq, Repr

/-- prepare.py:59-104 `_preprocess_tar` -/
def scanTar (maxParts : Nat) (fail : Option ScanFail) (tar : List (Member B)) : Scanned :=
  match fail with
  | none => ⟨tarCount tar, partsLoop maxParts [] tar, true⟩
  | some .reading => ⟨0, [], false⟩
  | some .closing => ⟨tarCount tar, [], false⟩

/-- prepare.py:203-211: the shards that are listed, with their counts, and the kinds of parts found in all of them. -/
def collect : List (String × Scanned) → List (String × Scanned) × List Name
  | l => l.foldl (fun r s =>
      if s.2.count = 0 then r
      else (r.1 ++ [s], if r.2.length < 50 then s.2.parts.foldl (fun f x => setAdd x f) r.2 else r.2)) ([], [])

/-- prepare.py:186-211 `prepare_dataset` up to the metadata: scanning all shards with `max_parts=50`. -/
def scanAll (shards : List (String × Option ScanFail × List (Member B))) : List (String × Scanned) × List Name :=
  collect (shards.map fun s => (s.1, scanTar 50 s.2.1 s.2.2))

/-- prepare.py:122-148 `iter_dataset_content`: `last` is `last_base_name`, `sample` the dict of the current sample; the contents of the parts in
`extract` are read, the others are None. -/
def contentLoop (extract : List Name) (last : Option Name) (sample : List (Name × Option B)) :
    List (Member B) → List (List (Name × Option B))
  | [] => if sample = [] then [] else [sample]
  | m :: l =>
    match m.part with
    | none => contentLoop extract last sample l
    | some (base, ext) =>
      let value := if ext ∈ extract then some m.data else none
      if last ≠ some base then
        (if sample = [] then [] else [sample]) ++ contentLoop extract (some base) (dictSet ext value []) l
      else contentLoop extract last (dictSet ext value sample) l

/-- prepare.py:107-148 `iter_dataset_content` -/
def iterContent (extract : List Name) (tar : List (Member B)) : List (List (Name × Option B)) := contentLoop extract none [] tar

end Verif.Wds
