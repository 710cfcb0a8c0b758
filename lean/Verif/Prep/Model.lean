import Verif.Float.Model

/-!
# Preparing a dataset: which shard goes into which split part

Model of /repo src/megatron/energon/flavors/webdataset/prepare.py:149-262 (`prepare_dataset`) and of
its reading side, flavors/webdataset/metadata.py:24-73 (`WebdatasetMeta.from_config`).

Names are strings. A float is a nonnegative rational (see `Verif.Float.Model`).
-/

namespace Verif.Prep

open Verif.Float

/-- Name and number of samples of a shard (structs.py:25-37 `ShardInfo`; the path is the dataset
path and the name, offset is 0). -/
structure Shard where
  name : String
  count : ℕ
deriving DecidableEq, Repr

/-- A Python dict as the list of its entries, in the order of insertion. -/
abbrev Dict (α : Type) := List (String × α)

/-- Python `d[k] = v`: an existing entry is replaced in place, a new one is appended. -/
def Dict.set {α : Type} : Dict α → String → α → Dict α
  | [], k, v => [(k, v)]
  | (k', v') :: d, k, v => if k' = k then (k, v) :: d else (k', v') :: Dict.set d k v

/-- Python `d[k]` (`none`: KeyError). -/
def Dict.get {α : Type} : Dict α → String → Option α
  | [], _ => none
  | (k', v') :: d, k => if k' = k then some v' else Dict.get d k

/-- prepare.py:203-211: the shards that could be read (a shard that failed to load has count 0 and is
skipped, and so is a shard without samples). `found` are the results of `_preprocess_tar`, in the
order of the paths (`pool.imap`). -/
def keep (found : List Shard) : List Shard := found.filter (fun s => s.count ≠ 0)

/-- prepare.py:219-221: `info.shard_counts`, a dict comprehension. -/
def shardCounts (shards : List Shard) : Dict ℕ :=
  shards.foldl (fun d s => d.set s.name s.count) []

/-- prepare.py:228: `sum(...)` of floats, from the left (Python before 3.12; later versions compensate
the rounding errors). -/
def pySum (rs : List ℚ) : ℚ := rs.foldl (fun a r => fl (a + r)) 0

/-- prepare.py:229-232: normalised ratios. -/
def normalize (total : ℚ) (rs : List (String × ℚ)) : List (String × ℚ) :=
  rs.map (fun r => (r.1, fl (r.2 / total)))

/-- Python `shards[a:b]` for nonnegative `a`, `b`. -/
def slice {α : Type} (l : List α) (a b : ℕ) : List α := (l.take b).drop a

/-- prepare.py:239-243, the loop over the split parts. `t` is `split_total`, `off` is
`split_offset`, `d` is `split_shards`. -/
def splitLoop (shards : List Shard) : List (String × ℚ) → ℚ → ℕ → Dict (List String) → Dict (List String)
  | [], _, _, d => d
  | (part, q) :: rs, t, off, d =>
    let t' := fl (t + q)
    let stop := pyInt (pyMul shards.length t')
    splitLoop shards rs t' stop (d.set part ((slice shards off stop).map Shard.name))

/-- prepare.py:226-243: `split_shards` for `split_parts_ratio`. `shards` are the shards after
`random.shuffle` (any order). `none`: ZeroDivisionError (all ratios are 0). -/
def splitRatio (shards : List Shard) (rs : List (String × ℚ)) : Option (Dict (List String)) :=
  let total := pySum (rs.map Prod.snd)
  if total = 0 ∧ rs ≠ [] then none
  else some (splitLoop shards (normalize total rs) 0 0 [])

/-- prepare.py:248-258: `split_shards` for `split_parts_patterns`. A pattern (after brace expansion
one of several regular expressions) is the predicate "some of them matches the beginning of the name". -/
def splitPatterns (shards : List Shard) (ps : List (String × (String → Bool))) : Dict (List String) :=
  ps.foldl (fun d p => d.set p.1 ((shards.map Shard.name).filter p.2)) []

/-- What `from_config` returns or raises. -/
inductive Loaded where
  | shards (l : List Shard) (sampleExcludes : List String)
  | invalidPart
  | empty
  | keyError
deriving DecidableEq, Repr

/-- All values of a list of optional values, `none` if one is missing. -/
def allSome {α : Type} : List (Option α) → Option (List α)
  | [] => some []
  | none :: _ => none
  | some a :: l => (allSome l).map (a :: ·)

/-- metadata.py:25-73: `WebdatasetMeta.from_config`. `expand` is `braceexpand`. The set of excludes is
a list here. -/
def fromConfig (expand : String → List String) (counts : Dict ℕ) (parts : Dict (List String))
    (exclude : List String) (part : String) : Loaded :=
  match parts.get part with
  | none => .invalidPart
  | some names =>
    let excludes := exclude.flatMap expand
    let files := (names.flatMap expand).filter (fun n => n ∉ excludes)
    if files.length = 0 then .empty
    else
      match allSome (files.map (fun n => (counts.get n).map (fun c => (⟨n, c⟩ : Shard)))) with
      | none => .keyError
      | some l => .shards l (excludes.filter (fun e => e.toList.contains '/'))

end Verif.Prep
