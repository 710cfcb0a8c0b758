import Verif.Task.PadModel
import Verif.Wrap.BatchModel
import Verif.Wrap.BlendModel

/-!
# Mixing batches of several datasets

Source: /repo src/megatron/energon/wrappers/mix_batch_dataset.py.
-/

namespace Verif.Mix

open Verif.Task Verif.Stream

variable {T α O Ty : Type}

/-- `b.shape[0]` of a tensor with at least one dimension -/
def rows (t : Tensor T α) : Nat := t.shape.headD 0

/-- Lines 51-55, the loop: element `i :: is` of `concat_tensor` after all the assignments `concat_tensor[b_idx:b_idx + b.shape[0], :s1, ...] = b`. -/
def concatGet (P : DTypes T α) (dt : T) : List (Tensor T α) → List Nat → α
  | [], _ => P.zero
  | _ :: _, [] => P.zero
  | b :: l, i :: is =>
    if i < rows b then
      if InShape is b.shape.tail then P.conv dt (b.get (i :: is)) else P.zero
    else concatGet P dt l ((i - rows b) :: is)

/-- Line 49: `[max(b.shape[dim] for b in batch) for dim in range(1, batch[0].ndim)]` -/
def maxTail (first : Tensor T α) (rest : List (Tensor T α)) : List Nat :=
  rest.foldl (fun m b => maxShape m b.shape.tail) first.shape.tail

/-- Lines 46-57 `concat_pad`; `none`: an `IndexError` (no tensors, a tensor without dimensions, or different numbers of dimensions). -/
def concatPad (P : DTypes T α) : List (Tensor T α) → Option (Tensor T α)
  | [] => none
  | b :: l =>
    if b.shape ≠ [] ∧ l.all (fun c => c.shape.length == b.shape.length) then
      some ⟨b.dtype, ((b :: l).map rows).sum :: maxTail b l, concatGet P b.dtype (b :: l)⟩
    else none

/-- Lines 22-43 `generic_concat` of `first :: rest` -/
def genericConcat (P : DTypes T α) (first : Val T α O) (rest : List (Val T α O)) : Option (BVal T α O) := genericWith (concatPad P) first rest

/-- Lines 60-74 `homogeneous_concat_mix` as batcher: a batch is a type (of Python) and a value. Line 72: different types are an `AssertionError`. Exceptions
of the batcher are handled (batch_dataset.py:190-193, `log_exception`), the batch is dropped. -/
def concatMix [DecidableEq Ty] (P : DTypes T α) : BatchFn (Ty × Val T α O) (BVal T α O) := fun _ batch =>
  match batch.map (·.content) with
  | [] => .skip
  | first :: rest =>
    if rest.all (fun s => first.1 == s.1) then
      match genericConcat P first.2 (rest.map (·.2)) with
      | some b => .ok b
      | none => .skip
    else .skip

variable {σ κ C C' ρ : Type}

/-- Lines 77-121 `MixBatchDataset` of the parts `D 0, ..., D (n-1)`: the dataset constructed at lines 109-116, everything else (iteration at line 121,
states, wrappers/base.py:86-123) is passed through. `batcher_stateless` is not passed, so `restore_sample` raises. Batch functions that are generators are not modelled. -/
def mixD (D : Nat → Dataset σ (Smp C) κ) (n : Nat) (R : Rng ρ) (batchSize : Nat) (f : BatchFn C C') :
    Dataset (((Nat → σ) × BlendX ρ C) × BatchX C) (Smp C') (((Nat → κ) × ρ) × Nat) :=
  { batchD (blendD D n R) batchSize false f with restoreSample := fun _ => none }

end Verif.Mix
