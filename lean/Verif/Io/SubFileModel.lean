/-!
# `SubFileReader`

Source: /repo src/megatron/energon/flavors/webdataset/itar.py:66-121. The stream below is an ideal file here (`RetryReadStream`, which is put
there by `open_itar`, is in `Verif.Io.RetryModel`).
-/

namespace Verif.Io

variable {β : Type}

/-- Calls on a file -/
inductive FOp where
  | read (n : Int)
  | seek (offset : Int) (whence : Int)
  | tell

/-- Their results -/
inductive FRes (β : Type) where
  | data (l : List β)
  | pos (n : Nat)
  /-- an exception -/
  | error
deriving DecidableEq

/-- A file: content and position -/
structure File (β : Type) where
  content : List β
  pos : Nat

/-- The bytes a read of `n` bytes gives (`n < 0`: all). -/
def File.peek (f : File β) (n : Int) : List β :=
  if n < 0 then f.content.drop f.pos else (f.content.drop f.pos).take n.toNat

/-- `read` of an ideal file -/
def File.read (f : File β) (n : Int) : List β × File β := (f.peek n, { f with pos := f.pos + (f.peek n).length })

/-- The position a seek asks for, as documented for `io.IOBase.seek`: from the beginning, the current position, or the end. -/
def seekTo (pos size : Nat) (offset : Int) : Int → Option Int
  | 0 => some offset
  | 1 => some ((pos : Int) + offset)
  | 2 => some ((size : Int) + offset)
  | _ => none

/-- The target of a seek, as computed by `SubFileReader.seek` (itar.py:88-96) and `RetryReadStream.seek` (retry_stream.py:63-72) -/
def target (pos size : Nat) (offset whence : Int) : Option Int :=
  if whence = 0 then some offset else if whence = 1 then some (pos + offset) else if whence = 2 then some (size + offset) else none

/-- A plain file (like `io.BytesIO`): a seek before the beginning is an error, one behind the end is not. -/
def File.op (f : File β) : FOp → FRes β × File β
  | .read n => (.data (f.peek n), { f with pos := f.pos + (f.peek n).length })
  | .seek o w =>
    match seekTo f.pos f.content.length o w with
    | some t => if t < 0 then (.error, f) else (.pos t.toNat, { f with pos := t.toNat })
    | none => (.error, f)
  | .tell => (.pos f.pos, f)

/-- `SubFileReader`: the stream, `offset`, `size`, `_pos` -/
structure Sub (β : Type) where
  stream : File β
  offset : Nat
  size : Nat
  pos : Nat

/-- itar.py:70-75 -/
def Sub.open (stream : File β) (offset size : Nat) : Sub β := ⟨{ stream with pos := offset }, offset, size, 0⟩

/-- `max(0, min(t, size))` -/
def clamp (t : Int) (size : Nat) : Nat := (max 0 (min t size)).toNat

/-- itar.py:77-103 -/
def Sub.op (s : Sub β) : FOp → FRes β × Sub β
  | .read n =>
    let n : Int := if n = -1 then s.size - s.pos else min n (s.size - s.pos)
    if n = 0 then (.data [], s)
    else
      let (l, f) := s.stream.read n
      (.data l, { s with stream := f, pos := s.pos + l.length })
  | .seek o w =>
    match target s.pos s.size o w with
    | none => (.error, s)
    | some t =>
      (.pos (clamp t s.size), { s with pos := clamp t s.size, stream := { s.stream with pos := s.offset + clamp t s.size } })
  | .tell => (.pos s.pos, s)

/-- The results of a sequence of calls -/
def runSub : Sub β → List FOp → List (FRes β)
  | _, [] => []
  | s, o :: l => (s.op o).1 :: runSub (s.op o).2 l

/-- The same of a file -/
def runFile : File β → List FOp → List (FRes β)
  | _, [] => []
  | f, o :: l => (f.op o).1 :: runFile (f.op o).2 l

end Verif.Io
