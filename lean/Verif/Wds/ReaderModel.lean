import Verif.Stream.Model

/-!
# Tar files, their index and the reader of a slice

Source: /repo src/megatron/energon/flavors/webdataset/config.py, prepare.py:43-104 (`_preprocess_tar`),
itar.py:116-164 (`get_itar_byte_offset`, `open_itar`), single_shard_reader.py, sample_loader.py:198-265, 554-584.

A tar file is a list of members. Not modelled: the bytes of headers (the tar format), I/O errors and `part_filter` (for these see `Verif.Wds.FilterModel`).
-/

namespace Verif.Wds

open Verif.Stream

abbrev Name := List Char

/-- A member of a tar file: the bytes it occupies (its header blocks, possible extension headers and padded data), whether it is a regular file, its
name, its data. -/
structure Member (B : Type) where
  size : Nat
  regular : Bool
  name : Name
  data : B

/-- The part of a path after the last `/`, and the part before it (with the `/`). -/
def splitDir (l : Name) : Name × Name :=
  ((l.reverse.dropWhile (· ≠ '/')).reverse, (l.reverse.takeWhile (· ≠ '/')).reverse)

/-- config.py:6 `split_name_re = ^((?:.*/|)[^.]+)[.]([^/]*)$`, as a function: the file name is split at its first dot. A file name
beginning with a dot only matches if the name of its directory contains no dot: then `[^.]+` takes the name of the directory with
its slash. (Names with line breaks are not modelled.) -/
def splitName (l : Name) : Option (Name × Name) :=
  let (dir, file) := splitDir l
  match file.dropWhile (· ≠ '.') with
  | [] => none
  | _ :: ext =>
    let stem := file.takeWhile (· ≠ '.')
    if stem ≠ [] then some (dir ++ stem, ext)
    else if dir ≠ [] ∧ '.' ∉ (splitDir dir.dropLast).2 then some (dir, ext)
    else none

/-- config.py:7 `skip_meta_re = __[^/]*__($|/)`, matched at the beginning: the first component of the path. -/
def isMeta (l : Name) : Bool :=
  let first := l.takeWhile (· ≠ '/')
  4 ≤ first.length && first.take 2 = ['_', '_'] && first.reverse.take 2 = ['_', '_']

variable {B : Type}

/-- prepare.py:81-90, single_shard_reader.py:126-137: the base name and extension of a member that belongs to a sample. -/
def Member.part (m : Member B) : Option (Name × Name) :=
  if !m.regular then none else if isMeta m.name then none else splitName m.name

/-- The bytes of several members -/
def bytes (l : List (Member B)) : Nat := (l.map (·.size)).sum

/-- prepare.py:73-102: the offsets appended to the index; `last` is `last_base_name`, `pos` the offset of the next member
(`tar.offset` at the end). -/
def indexFrom (last : Option Name) (pos : Nat) : List (Member B) → List Nat
  | [] => [pos]
  | m :: l =>
    match m.part with
    | none => indexFrom last (pos + m.size) l
    | some (base, _) =>
      if last ≠ some base then pos :: indexFrom (some base) (pos + m.size) l
      else indexFrom last (pos + m.size) l

/-- prepare.py:43-104: the index file of a tar file -/
def tarIndex (tar : List (Member B)) : List Nat := indexFrom none 0 tar

/-- prepare.py:99-101: `shard_info.count` counts the appended sample offsets. -/
def tarCount (tar : List (Member B)) : Nat := (tarIndex tar).length - 1

/-- itar.py:125-133 `get_itar_byte_offset`; `none`: `IndexError`. -/
def byteOffset (index : List Nat) (i : Nat) : Option Nat := if i = 0 then some 0 else index[i]?

/-- Skip `n` bytes of a tar file; `none` if this is not the beginning of a member. -/
def dropBytes : Nat → List (Member B) → Option (List (Member B))
  | 0, l => some l
  | _ + 1, [] => none
  | n + 1, m :: l => if m.size ≤ n + 1 then dropBytes (n + 1 - m.size) l else none

/-- The members in the first `n` bytes; `none` if a member is cut. -/
def takeBytes : Nat → List (Member B) → Option (List (Member B))
  | 0, _ => some []
  | _ + 1, [] => none
  | n + 1, m :: l => if m.size ≤ n + 1 then (takeBytes (n + 1 - m.size) l).map (m :: ·) else none

/-- itar.py:137-170 `open_itar`: the members in a range of bytes. (An unaligned range would show garbage; here `none`.) -/
def openItar (tar : List (Member B)) (off size : Nat) : Option (List (Member B)) := (dropBytes off tar).bind (takeBytes size)

/-- `tarinfo.offset` of the members of a tar stream -/
def withOffsets (pos : Nat) : List (Member B) → List (Nat × Member B)
  | [] => []
  | m :: l => (pos, m) :: withOffsets (pos + m.size) l

/-- `_cur_tarinfo`, `_cur_base_name`, `_cur_ext` -/
structure Cur (B : Type) where
  off : Nat
  base : Name
  ext : Name
  data : B

/-- A raw sample: `__key__` (without the name of the shard), `__shard__`, the parts by extension -/
structure Raw (B : Type) where
  base : Name
  shard : String
  parts : List (Name × B)
deriving DecidableEq

/-- `group[ext] = data` of a Python dict -/
def dictSet {K V : Type} [DecidableEq K] (k : K) (v : V) : List (K × V) → List (K × V)
  | [] => [(k, v)]
  | (k', v') :: l => if k' = k then (k, v) :: l else (k', v') :: dictSet k v l

/-- structs.py:25-37 `ShardInfo` with the bytes computed at single_shard_reader.py:66-72 -/
structure Shard where
  name : String
  offset : Nat
  count : Nat
  byteOff : Nat
  byteSize : Nat

/-- A `SingleShardReader`: the tar stream behind the current member, the current member, `shard_state.offset`,
`shard_state.byte_offset`, and `_orig_shard_state_byte_offset`. -/
structure Rd (B : Type) where
  stream : List (Nat × Member B)
  cur : Option (Cur B)
  offset : Nat
  byteOff : Nat
  orig : Nat

/-- single_shard_reader.py:46-108 `__init__`: opens the rest of a slice (`tar` are the members of the whole file). `excl` are the base names excluded in this
shard. `none`: the assertion or the tar module fail. -/
def rdOpen (tar : List (Member B)) (sh : Shard) (offset byteOff : Nat) : Option (Rd B) :=
  if offset = sh.count then some ⟨[], none, offset, byteOff, byteOff⟩
  else if byteOff ≤ sh.byteSize then
    if byteOff < sh.byteSize then
      (openItar tar (sh.byteOff + byteOff) (sh.byteSize - byteOff)).map
        fun l => ⟨withOffsets 0 l, none, offset, byteOff, byteOff⟩
    else some ⟨[], none, offset, byteOff, byteOff⟩
  else none

/-- single_shard_reader.py:118-143 `_next_tarinfo`: the next member which belongs to a sample that is not excluded, and the rest of the stream. -/
def nextInfo (excl : Name → Bool) : List (Nat × Member B) → Option (Cur B × List (Nat × Member B))
  | [] => none
  | (off, m) :: l =>
    match m.part with
    | none => nextInfo excl l
    | some (base, ext) => if excl base then nextInfo excl l else some (⟨off, base, ext, m.data⟩, l)

/-- single_shard_reader.py:171-226, the loop: take the members with this base name; the parts, and the next member with another base name
together with the rest of the stream. -/
def readGroup (excl : Name → Bool) (base : Name) (parts : List (Name × B)) :
    List (Nat × Member B) → List (Name × B) × Option (Cur B × List (Nat × Member B))
  | [] => (parts, none)
  | (off, m) :: l =>
    match m.part with
    | none => readGroup excl base parts l
    | some (b, ext) =>
      if excl b then readGroup excl base parts l
      else if base ≠ b then (parts, some (⟨off, b, ext, m.data⟩, l))
      else readGroup excl base (dictSet ext m.data parts) l

/-- Result of `read_next`. -/
inductive Rn (B : Type) where
  | stop
  /-- `AssertionError`: the key does not match (single_shard_reader.py:158-160); the reader keeps the current member -/
  | mismatch (r : Rd B)
  | got (a : Smp (Raw B)) (r : Rd B)

/-- single_shard_reader.py:145-257 `read_next(for_group_name, must_match=True)` -/
def readNext (excl : Name → Bool) (sh : Shard) (want : Option Name) (r : Rd B) : Rn B :=
  match (match r.cur with
    | some c => some (c, r.stream)
    | none => nextInfo excl r.stream) with
  | none => .stop
  | some (c, rest) =>
    if want ≠ none ∧ want ≠ some c.base then .mismatch { r with cur := some c, stream := rest }
    else
      let key := [.str "Webdataset", .str sh.name, .num (r.offset + sh.offset)]
      match readGroup excl c.base [(c.ext, c.data)] rest with
      | (parts, some (c', rest')) =>
        .got ⟨⟨c.base, sh.name, parts⟩, key⟩ ⟨rest', some c', r.offset + 1, c'.off + r.orig, r.orig⟩
      | (parts, none) =>
        .got ⟨⟨c.base, sh.name, parts⟩, key⟩
          ⟨[], none, r.offset + 1, (sh.byteSize - (sh.byteOff + r.orig - sh.byteOff)) + r.orig, r.orig⟩

/-- sample_loader.py:206-247 for one column: all samples of a reader, in order. -/
inductive Reads (excl : Name → Bool) (sh : Shard) : Rd B → List (Smp (Raw B)) → Prop where
  | stop {r} : readNext excl sh none r = .stop → Reads excl sh r []
  | next {r a r' xs} : readNext excl sh none r = .got a r' → Reads excl sh r' xs → Reads excl sh r (a :: xs)

/-- single_shard_reader.py:66-72: the bytes of a slice, from the index. -/
def mkShard (index : List Nat) (name : String) (offset count : Nat) : Option Shard :=
  match byteOffset index offset, byteOffset index (offset + count) with
  | some b, some e => some ⟨name, offset, count, b, e - b⟩
  | _, _ => none

/-! ## Several columns (joined datasets) -/

/-- One column: what it excludes, its slice, its reader. -/
structure Col (B : Type) where
  excl : Name → Bool
  shard : Shard
  rd : Rd B

/-- A joined sample: one raw sample per column, `None` if it has never been set -/
abbrev Joined (B : Type) := List (Option (Smp (Raw B)))

/-- The state of `_read_multicolumn_shard`: the readers and the list `groups`, for the first (primary) column and the others. -/
structure Multi (B : Type) where
  prim : Col B
  cols : List (Col B × Option (Smp (Raw B)))

/-- Result of one turn of the loop of `_read_multicolumn_shard` -/
inductive Mn (B : Type) where
  | stop
  | raise
  | got (a : Joined B) (m : Multi B)

/-- sample_loader.py:244-264: the other columns. `raising`: the handler raises (`none`); otherwise the old entry of `groups` is left
as it is. A column that is exhausted too early is a fatal error. -/
def readCols (raising : Bool) (base : Name) :
    List (Col B × Option (Smp (Raw B))) → Option (List (Col B × Option (Smp (Raw B))))
  | [] => some []
  | (c, g) :: l =>
    match readNext c.excl c.shard (some base) c.rd with
    | .stop => none
    | .mismatch r => if raising then none else (readCols raising base l).map (({ c with rd := r }, g) :: ·)
    | .got a r => (readCols raising base l).map (({ c with rd := r }, some a) :: ·)

/-- sample_loader.py:221-265: one turn of the loop. -/
def multiNext (raising : Bool) (m : Multi B) : Mn B :=
  match readNext m.prim.excl m.prim.shard none m.prim.rd with
  | .stop =>
    if m.cols.all (fun c => match readNext c.1.excl c.1.shard none c.1.rd with | .stop => true | _ => false) then .stop else .raise
  | .mismatch _ => .raise
  | .got a r =>
    match readCols raising a.content.base m.cols with
    | none => .raise
    | some cols => .got (some a :: cols.map (·.2)) ⟨{ m.prim with rd := r }, cols⟩

/-- A joined slice as it is opened: sample_loader.py:206-220 -/
def multiOpen (p : Col B) (cols : List (Col B)) : Multi B := ⟨p, cols.map fun c => (c, none)⟩

/-- The joined samples in order. -/
inductive MReads (raising : Bool) : Multi B → List (Joined B) → Prop where
  | nil {m} : MReads raising m []
  | next {m a m' xs} : multiNext raising m = .got a m' → MReads raising m' xs → MReads raising m (a :: xs)

/-- sample_loader.py:554-584 `restore_sample`, for one column: open the slice with this one sample and read it. `tar` and the
exclusions belong to the shard with this name. -/
def restoreRaw (tar : List (Member B)) (excl : Name → Bool) (name : String) : List Key → Option (Smp (Raw B))
  | [.str "Webdataset", .str n, .num i] =>
    if n ≠ name then none
    else
      (mkShard (tarIndex tar) name i 1).bind fun sh =>
        (rdOpen tar sh 0 0).bind fun r =>
          match readNext excl sh none r with
          | .got a _ => some a
          | _ => none
  | _ => none

end Verif.Wds
