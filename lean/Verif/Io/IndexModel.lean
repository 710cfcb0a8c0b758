import Verif.Wds.ReaderModel

/-!
# Index files

Source: /repo src/megatron/energon/flavors/webdataset/itar.py. Bytes are numbers below 256.
-/

namespace Verif.Io

/-- The bytes of a number, the lowest first, `k` of them. -/
def leBytes : Nat → Nat → List Nat
  | 0, _ => []
  | k + 1, n => n % 256 :: leBytes k (n / 256)

/-- The number with these bytes -/
def ofBytes : List Nat → Nat
  | [] => 0
  | b :: l => b + 256 * ofBytes l

/-- itar.py:48 `struct.pack("Q", offset)` (on a little endian machine); `none`: `struct.error` -/
def packQ (n : Nat) : Option (List Nat) := if n < 2 ^ 64 then some (leBytes 8 n) else none

/-- itar.py:28 `struct.unpack("Q", data)[0]`; `none`: `struct.error` for another length -/
def unpackQ (l : List Nat) : Option Nat := if l.length = 8 then some (ofBytes l) else none

/-- itar.py:29-31 `TarIndexReader.__len__` -/
def indexLen (file : List Nat) : Nat := file.length / 8

/-- itar.py:22-27 `TarIndexReader.__getitem__`; `none`: `IndexError` (or `struct.error`) -/
def indexGet (file : List Nat) (i : Int) : Option Nat :=
  if i ≥ (indexLen file : Int) ∨ i < 0 then none else unpackQ ((file.drop (8 * i.toNat)).take 8)

/-- itar.py:125-133 `get_itar_byte_offset`: `file` is the content of the index file. -/
def fileByteOffset (file : List Nat) (i : Nat) : Option Nat := if i = 0 then some 0 else indexGet file (i : Int)

/-! ## Writing -/

/-- The two files of the file system that matter: `….tar.idx` and `….tar.idx.tmp` (`with_suffix` of the same path, itar.py:44-45:
different names). -/
structure Disk where
  final : Option (List Nat)
  tmp : Option (List Nat)

/-- Where the writer is: prepare.py:66-102 with itar.py:42-64. -/
inductive Phase where
  /-- before `open("wb")` -/
  | start
  /-- these offsets are still to be appended, then the writer is closed -/
  | writing (todo : List Nat)
  /-- file closed, to be moved -/
  | closed
  /-- the copy is made, the old name is still to be deleted (file systems where `mv` copies) -/
  | copied
  /-- file closed after an exception, to be deleted -/
  | failed
  /-- finished; `true`: normally -/
  | done (ok : Bool)

structure WState where
  disk : Disk
  /-- bytes written but not yet on the disk -/
  buf : List Nat
  phase : Phase

/-- One step of the writer. The process may be killed in any state: then the disk stays as it is. Bytes in the buffer may reach the disk at
any time (`flush`), at the latest when the file is closed. -/
inductive WStep : WState → WState → Prop where
  /-- itar.py:48-49 -/
  | append {d buf n todo bs} : packQ n = some bs → WStep ⟨d, buf, .writing (n :: todo)⟩ ⟨d, buf ++ bs, .writing todo⟩
  /-- a part of the buffer goes to the disk -/
  | flush {d : Disk} {f b1 b2 : List Nat} {todo} : d.tmp = some f →
      WStep ⟨d, b1 ++ b2, .writing todo⟩ ⟨{ d with tmp := some (f ++ b1) }, b2, .writing todo⟩
  /-- itar.py:52: closed normally -/
  | close {d : Disk} {f buf : List Nat} : d.tmp = some f →
      WStep ⟨d, buf, .writing []⟩ ⟨{ d with tmp := some (f ++ buf) }, [], .closed⟩
  /-- itar.py:54, 296-305 of epath.py `move` → `fs.mv`: a rename -/
  | rename {d : Disk} {f buf} : d.tmp = some f → WStep ⟨d, buf, .closed⟩ ⟨⟨some f, none⟩, buf, .done true⟩
  /-- the same as copy and delete; a copy appears completely or not at all (object stores) -/
  | copy {d : Disk} {f buf} : d.tmp = some f → WStep ⟨d, buf, .closed⟩ ⟨{ d with final := some f }, buf, .copied⟩
  | delete {d : Disk} {buf} : WStep ⟨d, buf, .copied⟩ ⟨{ d with tmp := none }, buf, .done true⟩
  /-- an exception in the loop (also from `append`), itar.py:63-64: closed without finalizing -/
  | raise {d : Disk} {f buf : List Nat} {todo} : d.tmp = some f →
      WStep ⟨d, buf, .writing todo⟩ ⟨{ d with tmp := some (f ++ buf) }, [], .failed⟩
  /-- itar.py:56 -/
  | unlink {d : Disk} {buf} : WStep ⟨d, buf, .failed⟩ ⟨{ d with tmp := none }, buf, .done false⟩

/-- Reachable states of the writer of the index `offs`, with `d` on the disk before. -/
inductive WReach (offs : List Nat) (d : Disk) : WState → Prop where
  | start : WReach offs d ⟨d, [], .start⟩
  /-- itar.py:46 `open("wb")`, which also truncates an old temporary file -/
  | begin : WReach offs d ⟨{ d with tmp := some [] }, [], .writing offs⟩
  | step {s s' : WState} : WReach offs d s → WStep s s' → WReach offs d s'

end Verif.Io
