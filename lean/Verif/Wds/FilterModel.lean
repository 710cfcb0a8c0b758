import Verif.Wds.ReaderModel

/-!
# Reading selected parts, with errors

Source: /repo src/megatron/energon/flavors/webdataset/single_shard_reader.py:145-257. `Verif.Wds.ReaderModel` reads all files of a sample; here the
`part_filter` and errors of reading are included. Simplification: whether reading a file fails depends on the sample and the extension.
-/

namespace Verif.Wds

open Verif.Stream

variable {B : Type}

/-- Lines 206-212: what happens for a file of a sample: it is read; the part filter rejects it; the part filter or reading raises; one of the
`SYSTEM_EXCEPTIONS` is raised. -/
inductive PartRes where
  | read
  | reject
  | fail
  | fatal
deriving DecidableEq

/-- Lines 206-212: one file. `raising`: the handler raises. `none`: an exception leaves `read_next`. -/
def addPart (sel : Name → Name → PartRes) (raising : Bool) (base ext : Name) (data : B) (parts : List (Name × B)) : Option (List (Name × B)) :=
  match sel base ext with
  | .read => some (dictSet ext data parts)
  | .reject => some parts
  | .fail => if raising then none else some parts
  | .fatal => none

/-- Lines 171-218, the loop, as `readGroup` -/
def readGroupF (sel : Name → Name → PartRes) (raising : Bool) (excl : Name → Bool) (base : Name) (parts : List (Name × B)) :
    List (Nat × Member B) → Option (List (Name × B) × Option (Cur B × List (Nat × Member B)))
  | [] => some (parts, none)
  | (off, m) :: l =>
    match m.part with
    | none => readGroupF sel raising excl base parts l
    | some (b, ext) =>
      if excl b then readGroupF sel raising excl base parts l
      else if base ≠ b then some (parts, some (⟨off, b, ext, m.data⟩, l))
      else (addPart sel raising base ext m.data parts).bind fun parts => readGroupF sel raising excl base parts l

/-- Lines 145-257 `read_next`; `none`: an exception of a part -/
def readNextF (sel : Name → Name → PartRes) (raising : Bool) (excl : Name → Bool) (sh : Shard) (want : Option Name) (r : Rd B) : Option (Rn B) :=
  match (match r.cur with
    | some c => some (c, r.stream)
    | none => nextInfo excl r.stream) with
  | none => some .stop
  | some (c, rest) =>
    if want ≠ none ∧ want ≠ some c.base then some (.mismatch { r with cur := some c, stream := rest })
    else
      let key := [.str "Webdataset", .str sh.name, .num (r.offset + sh.offset)]
      (addPart sel raising c.base c.ext c.data []).bind fun parts =>
        match readGroupF sel raising excl c.base parts rest with
        | none => none
        | some (parts, some (c', rest')) =>
          some (.got ⟨⟨c.base, sh.name, parts⟩, key⟩ ⟨rest', some c', r.offset + 1, c'.off + r.orig, r.orig⟩)
        | some (parts, none) =>
          some (.got ⟨⟨c.base, sh.name, parts⟩, key⟩
            ⟨[], none, r.offset + 1, (sh.byteSize - (sh.byteOff + r.orig - sh.byteOff)) + r.orig, r.orig⟩)

/-- sample_loader.py:206-247 for one column: the samples of a reader, in order; at the end either the file ends (`true`) or an exception is raised
(`false`). -/
inductive ReadsF (sel : Name → Name → PartRes) (raising : Bool) (excl : Name → Bool) (sh : Shard) : Rd B → List (Smp (Raw B)) → Bool → Prop where
  | stop {r} : readNextF sel raising excl sh none r = some .stop → ReadsF sel raising excl sh r [] true
  | raise {r} : readNextF sel raising excl sh none r = none → ReadsF sel raising excl sh r [] false
  | next {r a r' xs b} : readNextF sel raising excl sh none r = some (.got a r') → ReadsF sel raising excl sh r' xs b →
      ReadsF sel raising excl sh r (a :: xs) b

/-- sample_loader.py:554-584 `restore_sample` with the part filter -/
def restoreRawF (sel : Name → Name → PartRes) (raising : Bool) (tar : List (Member B)) (excl : Name → Bool) (name : String) : List Key → Option (Smp (Raw B))
  | [.str "Webdataset", .str n, .num i] =>
    if n ≠ name then none
    else
      (mkShard (tarIndex tar) name i 1).bind fun sh =>
        (rdOpen tar sh 0 0).bind fun r =>
          match readNextF sel raising excl sh none r with
          | some (.got a _) => some a
          | _ => none
  | _ => none

end Verif.Wds
