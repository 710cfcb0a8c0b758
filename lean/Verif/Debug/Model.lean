import Mathlib.Algebra.BigOperators.Group.List.Basic
import Mathlib.Algebra.Group.Pi.Basic

/-!
# The tool `energon analyze-debug`

Source: /repo src/megatron/energon/tools/analyze_debug.py. A log file is the list of its entries written by loaders when they deliver a batch. Not
modelled: reading and decoding of the lines, the choice of the loader by the user, the progress output, overflow of the 32 bit counters, the conversion
of the counts to an image (`gain`). Colours are elements of a commutative monoid (the program: three numbers).
-/

namespace Verif.Debug

variable {α : Type} [AddCommMonoid α]

/-! ## The heatmap -/

/-- analyze_debug.py:140-153: the heatmap; `cell` is 0 outside of the shape. -/
structure Heat (α : Type) where
  rows : Nat
  cols : Nat
  cell : Nat → Nat → α
  sampleFactor : Nat
  stepFactor : Nat
  sampleMax : Int
  stepMax : Int

/-- Lines 143-153 -/
def Heat.empty (rows cols : Nat) : Heat α := ⟨rows, cols, fun _ _ => 0, 1, 1, -1, -1⟩

/-- Lines 165-166, 170-173, along one axis of length `n`: `a[: n // 2] = a[::2] + a[1::2]; a[n // 2 :] = 0`, for any type of rows. With an odd `n` the two
parts have different lengths: for 1 and 0 they are broadcast to length 0, otherwise numpy raises (`none`). -/
def halve {β : Type} [AddCommMonoid β] (n : Nat) (a : Nat → β) : Option (Nat → β) :=
  if n % 2 = 0 then some fun i => if i < n / 2 then a (2 * i) + a (2 * i + 1) else 0
  else if n = 1 then some fun _ => 0
  else none

/-- Lines 164-168, the loop. The number bounds the iterations (for `rows = 0` the program does not end; `none`). -/
def growRows : Nat → Nat → Heat α → Option (Heat α)
  | 0, sample, h => if h.rows * h.sampleFactor ≤ sample then none else some h
  | n + 1, sample, h =>
    if h.rows * h.sampleFactor ≤ sample then
      (halve h.rows h.cell).bind fun c => growRows n sample { h with cell := c, sampleFactor := h.sampleFactor * 2, sampleMax := 0 }
    else some h

/-- Lines 169-175, the same for the steps -/
def growCols : Nat → Nat → Heat α → Option (Heat α)
  | 0, step, h => if h.cols * h.stepFactor ≤ step then none else some h
  | n + 1, step, h =>
    if h.cols * h.stepFactor ≤ step then
      (halve h.cols fun j i => h.cell i j).bind fun c =>
        growCols n step { h with cell := fun i j => c j i, stepFactor := h.stepFactor * 2, stepMax := 0 }
    else some h

/-- Lines 155-181 `add`, with the colour of the source -/
def Heat.add (h : Heat α) (sample step : Nat) (color : α) : Option (Heat α) :=
  (growRows (sample + 1) sample h).bind fun h =>
    (growCols (step + 1) step h).bind fun h =>
      let j := step / h.stepFactor
      let i := sample / h.sampleFactor
      some { h with
        cell := fun i' j' => if i' = i ∧ j' = j then h.cell i' j' + color else h.cell i' j'
        stepMax := max h.stepMax j
        sampleMax := max h.sampleMax i }

/-- All points one after another -/
def Heat.addAll (h : Heat α) : List (Nat × Nat × α) → Option (Heat α)
  | [] => some h
  | (s, t, c) :: l => (h.add s t c).bind fun h => h.addAll l

/-- Line 194: is the cell in the part that is saved as an image? -/
def Heat.saved (h : Heat α) (i j : Nat) : Bool := i < h.sampleMax + 1 ∧ j < h.stepMax + 1

/-! ## The logs -/

/-- An entry `SavableDataLoader.yield` or `BasicDataLoader.yield` (lines 452-463): the loader, `global_idx`, and the keys if there are any -/
structure Entry (K : Type) where
  id : Nat
  idx : Nat
  keys : Option (List K)

/-- What the generator `log_entries` yields: `None` (the next step), keys, or an `AssertionError` -/
inductive Tok (K : Type) where
  | next
  | keys (ks : List K)
  | fail

variable {K : Type} [DecidableEq K]

/-- Lines 567-581 `log_entries`, `idx` being its variable of this name -/
def logEntries (id : Nat) : Nat → List (Entry K) → List (Tok K)
  | _, [] => []
  | idx, e :: l =>
    if e.id = id then
      if e.idx < idx then [.fail]
      else List.replicate (e.idx - idx) .next ++ ((match e.keys with | some ks => [.keys ks] | none => []) ++ logEntries id e.idx l)
    else logEntries id idx l

/-- Lines 355-371, the inner loop for one log: the keys up to the next `None` and what remains, `none` if the generator is exhausted. `none`: an exception. -/
def drain : List (Tok K) → Option (List K × Option (List (Tok K)))
  | [] => some ([], none)
  | .next :: l => some ([], some l)
  | .keys ks :: l => (drain l).map fun r => (ks ++ r.1, r.2)
  | .fail :: _ => none

/-- Lines 351-371, one step: all logs. The result: keys with the number of the log, and the logs that remain. -/
def stepLogs : List (Nat × List (Tok K)) → Option (List (K × Nat) × List (Nat × List (Tok K)))
  | [] => some ([], [])
  | (src, l) :: its =>
    (drain l).bind fun d => (stepLogs its).map fun r =>
      (d.1.map (fun k => (k, src)) ++ r.1, match d.2 with | none => r.2 | some l' => (src, l') :: r.2)

/-- Lines 349-375: all steps, from the step `count`; the result: keys with step and log, in the order they are counted, and the number of steps. The first number bounds
the iterations. -/
def allSteps : Nat → Nat → List (Nat × List (Tok K)) → Option (List (K × Nat × Nat) × Nat)
  | _, count, [] => some ([], count)
  | 0, _, _ :: _ => none
  | n + 1, count, its =>
    (stepLogs its).bind fun r => (allSteps n (count + 1) r.2).map fun rest =>
      (r.1.map (fun x => (x.1, count, x.2)) ++ rest.1, rest.2)

/-- Line 369: `key_index.setdefault(log_key, len(key_index))`; the dict is the list of its keys in order -/
def keyId (dict : List K) (k : K) : Nat × List K :=
  if k ∈ dict then (dict.idxOf k, dict) else (dict.length, dict ++ [k])

/-- Lines 368-370: the points of the heatmap -/
def number (dict : List K) : List (K × Nat × Nat) → List (Nat × Nat × Nat)
  | [] => []
  | (k, t, src) :: l => ((keyId dict k).1, t, src) :: number (keyId dict k).2 l

/-- More iterations than there can be -/
def enough (its : List (Nat × List (Tok K))) : Nat := (its.map fun x => x.2.length + 1).sum

/-- Lines 345-375, for the logs of the selected loader, with `--skip` -/
def batchPoints (id skip : Nat) (logs : List (List (Entry K))) : Option (List (K × Nat × Nat) × Nat) :=
  let its := logs.zipIdx.map fun x => (x.2, logEntries id skip x.1)
  allSteps (enough its) 0 its

/-- Lines 300-375: the heatmap of the batches. `color` is `cpal[src % colors_size]`. -/
def analyze (rows cols id skip : Nat) (color : Nat → α) (logs : List (List (Entry K))) : Option (Heat α) :=
  (batchPoints id skip logs).bind fun r =>
    (Heat.empty rows cols).addAll ((number [] r.1).map fun p => (p.1, p.2.1, color p.2.2))

/-- Lines 591-603 `_iter_sl_log_line_keys`, `start` being `--skip`: entries of the sample loaders are `count` and key -/
def loaderKeys (start : Nat) : Nat → List (Nat × K) → List (Tok K)
  | _, [] => []
  | count, e :: l =>
    if e.1 < start then loaderKeys start count l
    else if e.1 < count then [.fail]
    else List.replicate (e.1 - count) .next ++ (.keys [e.2] :: loaderKeys start e.1 l)

/-- Lines 377-419, if there are no keys of batches or with `--force-loading-order`: `heatmap.add(key_id, count)` (line 413) has too few arguments, a `TypeError` at
the first key. -/
def analyzeLoading (rows cols skip : Nat) (logs : List (List (Nat × K))) : Option (Heat α) :=
  let its := logs.zipIdx.map fun x => (x.2, loaderKeys skip skip x.1)
  (allSteps (enough its) 0 its).bind fun r => if r.1 = [] then some (Heat.empty rows cols) else none

/-- savable_loader.py:815-837, 1135-1155: the entries of a loader for the batches it delivers, in order (`keys` of each): `global_idx` counts from 0. -/
def written (id : Nat) (batches : List (Option (List K))) : List (Entry K) := batches.zipIdx.map fun x => ⟨id, x.2, x.1⟩

end Verif.Debug
