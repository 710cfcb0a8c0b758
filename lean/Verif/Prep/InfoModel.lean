import Verif.Prep.Model

/-!
# `energon info`

Model of /repo src/megatron/energon/tools/info.py. The printed text is modelled by the values put into it; the name and the path of the dataset and
the name of the sample type are left out (they are copied).
-/

namespace Verif.Prep

open Verif.Float

/-- info.py:28 `keys` -/
def sizeKeys : List String := ["B", "KiB", "MiB", "GiB", "TiB"]

/-- `f"{x:.2f}"`, in hundredths: the exact value of the float is rounded to the nearest number with two decimals, ties to even. -/
def hundredths (x : ℚ) : ℤ := roundHalfEven (100 * x)

/-- info.py:29-33: the loop over the units; `x` is `size`. -/
def fmtLoop : List String → ℚ → ℤ × String
  | [], x => (hundredths x, "TiB")
  | k :: ks, x => if x < 1024 then (hundredths x, k) else fmtLoop ks (fl (x / 1024))

/-- info.py:27-33 `fmt_size`: the printed number in hundredths, and the unit. (An int that does not fit into a float is an exception in Python; a
size of 2^1024 bytes is left out.) -/
def fmtSize (n : ℕ) : ℤ × String := fmtLoop sizeKeys n

/-- info.py:72-76 `srt_key` -/
def srtKey (name : String) : ℕ :=
  if name = "train" then 0 else if name = "val" then 1 else if name = "test" then 2 else 3

/-- One line for a split part: info.py:23-24, 78-90 -/
structure InfoLine where
  name : String
  /-- `{split_ratio:.0f}` -/
  percent : ℤ
  samples : ℕ
  shards : ℕ
deriving DecidableEq, Repr

/-- What is printed: info.py:16-21, 92-105 -/
structure InfoOut where
  samples : ℕ
  size : ℤ × String
  shards : ℕ
  lines : List InfoLine
deriving DecidableEq, Repr

/-- Why nothing is printed -/
inductive InfoErr where
  | keyError
  | zeroDivision
  | fileNotFound
deriving DecidableEq, Repr

/-- info.py:81-86 and `{split_ratio:.0f}` (line 23): `round(100 * sum / samples_count, 2)`, printed without decimals. -/
def percentOf (s total : ℕ) : ℤ :=
  roundHalfEven (fl ((hundredths (pyDiv (100 * s) total) : ℚ) / 100))

/-- info.py:78-89: the line of one part. -/
def infoLine (counts : Dict ℕ) (total : ℕ) (part : String × List String) : Except InfoErr InfoLine :=
  match allSome (part.2.map counts.get) with
  | none => .error .keyError
  | some cs =>
    if total = 0 then .error .zeroDivision
    else .ok { name := part.1, percent := percentOf cs.sum total, samples := cs.sum, shards := part.2.length }

/-- The generator expression of info.py:78-91: the first exception ends it. -/
def infoLines (counts : Dict ℕ) (total : ℕ) : List (String × List String) → Except InfoErr (List InfoLine)
  | [] => .ok []
  | p :: ps =>
    match infoLine counts total p with
    | .error e => .error e
    | .ok l =>
      match infoLines counts total ps with
      | .error e => .error e
      | .ok ls => .ok (l :: ls)

/-- info.py:55-105 `command`. `counts` is `shard_counts` of .info.yaml, `parts` is `split_parts` of split.yaml, `size` the size of a file of the
dataset directory (`none`: there is no such file). `exclude` of split.yaml is not looked at. -/
def info (counts : Dict ℕ) (parts : Dict (List String)) (size : String → Option ℕ) : Except InfoErr InfoOut :=
  let total := (counts.map Prod.snd).sum
  match infoLines counts total (parts.mergeSort (fun a b => decide (srtKey a.1 ≤ srtKey b.1))) with
  | .error e => .error e
  | .ok ls =>
    match allSome (counts.map fun c => size c.1) with
    | none => .error .fileNotFound
    | some zs => .ok { samples := total, size := fmtSize zs.sum, shards := counts.length, lines := ls }

end Verif.Prep
