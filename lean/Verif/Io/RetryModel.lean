import Verif.Io.SubFileModel

/-!
# `RetryReadStream`

Source: /repo src/megatron/energon/retry_stream.py. The file does not change; each access to it may fail with an `IOError`, and a read may
be short.
-/

namespace Verif.Io

variable {β : Type}

/-- What happens in one round of the loop of `read` -/
inductive Att where
  /-- `open` raises (only if the file is not open; otherwise the read raises) -/
  | openFails
  /-- `seek` after opening raises (only if the file is not open; otherwise the read raises) -/
  | seekFails
  | readFails
  /-- a read that returns at most `k` bytes -/
  | short (k : Nat)
  /-- a read that returns all the bytes there are -/
  | full

/-- `_file` (the position of the open file below, if it is open), `_pos` -/
structure Retry where
  file : Option Nat
  pos : Nat

/-- Result of `read` -/
inductive RRes (β : Type) where
  | data (l : List β)
  /-- the loop ends without `return`: Python's `None` -/
  | none
  | error
deriving DecidableEq

/-- The bytes from position `p` a read of `n` bytes asks for (`n < 0`: all) -/
def wanted (content : List β) (p : Nat) (n : Int) : List β :=
  if n < 0 then content.drop p else (content.drop p).take n.toNat

/-- retry_stream.py:39-61, the loop: `left` rounds are left, `atts` says what happens in the rounds (and `full` beyond its end).
`(n == -1 and pos >= size) or len(buf) == n or pos >= size`: the first case is covered by the last. -/
def readLoop (content : List β) (n : Int) : Nat → List Att → List β → Retry → RRes β × Retry
  | 0, _, _, r => (.none, r)
  | left + 1, atts, buf, r =>
    let att := atts.headD .full
    let failed : RRes β × Retry :=
      -- lines 52-61; in the last round the exception is raised again
      if left = 0 then (.error, ⟨none, r.pos⟩) else readLoop content n left atts.tail buf ⟨none, r.pos⟩
    let got (hp : Nat) (res : List β) : RRes β × Retry :=
      -- lines 45-51
      let r := ⟨some (hp + res.length), r.pos + res.length⟩
      let buf := buf ++ res
      if (buf.length : Int) = n ∨ r.pos ≥ content.length then (.data res, r) else readLoop content n left atts.tail buf r
    match att with
    | .openFails =>
      match r.file with
      | none => (.error, r) -- line 54: `None.close()`, an `AttributeError`, is not handled
      | some _ => failed
    | .seekFails => failed
    | .readFails => failed
    | .short k => got (r.file.getD r.pos) ((wanted content (r.file.getD r.pos) n).take k)
    | .full => got (r.file.getD r.pos) (wanted content (r.file.getD r.pos) n)

/-- retry_stream.py:37-61 `read` -/
def Retry.read (content : List β) (r : Retry) (n : Int) (atts : List Att) : RRes β × Retry := readLoop content n 10 atts [] r

/-- retry_stream.py:63-79 `seek`; `ok`: the seek of the open file does not raise. `none`: `ValueError`. -/
def Retry.seek (size : Nat) (r : Retry) (offset whence : Int) (ok : Bool) : Option Nat × Retry :=
  match target r.pos size offset whence with
  | Option.none => (Option.none, r)
  | some t => (some (clamp t size), ⟨if ok then r.file.map (fun _ => clamp t size) else r.file, clamp t size⟩)

/-- A call with what happens below -/
inductive RCall where
  | read (n : Int) (atts : List Att)
  | seek (offset whence : Int) (ok : Bool)

/-- Its result -/
inductive RAns (β : Type) where
  | read (a : RRes β)
  | seek (p : Option Nat)

def Retry.call (content : List β) (r : Retry) : RCall → RAns β × Retry
  | .read n atts => (.read (r.read content n atts).1, (r.read content n atts).2)
  | .seek o w ok => (.seek (r.seek content.length o w ok).1, (r.seek content.length o w ok).2)

/-- The results of a sequence of calls; `r` as it is constructed is `⟨none, 0⟩` (lines 19-24). -/
def runRetry (content : List β) : Retry → List RCall → List (RAns β)
  | _, [] => []
  | r, c :: l => (r.call content c).1 :: runRetry content (r.call content c).2 l

end Verif.Io
