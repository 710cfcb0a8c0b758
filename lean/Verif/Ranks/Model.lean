import Verif.Stream.Spec

/-!
# Saving and restoring the loaders of a distributed job

Source: /repo src/megatron/energon/savable_loader.py:883-1015.

`n` processes (data parallel ranks `0 … n-1`) form the group `worker_config.data_parallel_group`; rank `i` is the process with the global rank
`members[i]` (without a group: `members = [0, …, n-1]`). `K` is the type of the states of one rank (`SavableDataLoaderState`). Python's `None`
is a state, too ("initial state").

The collective operations of `torch.distributed` (trusted, not code of the repository) return only if all processes of the group take part in the same operation
with the same root. `dst` of `gather_object` and `src` of `scatter_object_list` are *global* ranks; a list for the results must be given on the
destination, and only there (`_validate_output_list_for_rank`).
-/

namespace Verif.Ranks

/-- Values of the argument `state`: `None`, the state of one rank, or a list with the states of all ranks -/
inductive Py (K : Type) where
  | none
  | one (k : K)
  | list (l : List (Option K))

/-- How a call ends: with a value, with an exception, or never -/
inductive Res (V : Type) where
  | ret (v : V)
  | raise
  | hang

/-- The communication a process asks for: none (the result is known), `all_gather_object`, `gather_object` (`out`: a list for the results is given),
`scatter_object_list`. -/
inductive Call (K : Type) where
  | local (r : Res (Py K))
  | allGather (x : Option K)
  | gather (x : Option K) (out : Bool) (dst : Nat)
  | scatter (l : List (Option K)) (src : Nat)

variable {K : Type}

/-- An optional state of one rank as a Python value -/
def pyOf : Option K → Py K
  | none => .none
  | some k => .one k

/-- What a process contributes to `all_gather_object`; outer `none`: it does not take part -/
def Call.inAllGather : Call K → Option (Option K)
  | .allGather x => some x
  | _ => none

/-- What the process with global rank `g` contributes to `gather_object` with destination `dst`; outer `none`: it does not take part, or with invalid
arguments (it raises `ValueError` then) -/
def Call.inGather (g dst : Nat) : Call K → Option (Option K)
  | .gather x out dst' => if dst' = dst ∧ out = decide (g = dst) then some x else none
  | _ => none

/-- The list a process passes to `scatter_object_list` with root `src`; `none`: it does not take part -/
def Call.inScatter (src : Nat) : Call K → Option (List (Option K))
  | .scatter l src' => if src' = src then some l else none
  | _ => none

/-- All values, if there are all -/
def allSome {A : Type} : List (Option A) → Option (List A)
  | [] => some []
  | none :: _ => none
  | some a :: l => (allSome l).map (a :: ·)

/-- The effect of the communication `calls[j]` asked for by the ranks `j`, for rank `i` (torch.distributed, see above) -/
def exchange (members : List Nat) (calls : List (Call K)) (i : Nat) : Res (Py K) :=
  match calls[i]?, members[i]? with
  | some (.local r), _ => r
  | some (.allGather _), _ =>
    match allSome (calls.map Call.inAllGather) with
    | some xs => .ret (.list xs)
    | none => .hang
  | some (.gather _ out dst), some g =>
    if dst ∉ members then .raise
    else if out ≠ decide (g = dst) then .raise
    else match allSome ((members.zip calls).map fun q => q.2.inGather q.1 dst) with
      | some xs => .ret (if g = dst then .list xs else .none)
      | none => .hang
  | some (.scatter _ src), some _ =>
    match members.idxOf? src with
    | none => .raise
    | some r =>
      match allSome (calls.map (Call.inScatter src)) with
      | some ls => match ls[r]? with
        | some l => if l.length = members.length then .ret (pyOf (l.getD i none)) else .raise
        | none => .hang
      | none => .hang
  | _, _ => .hang

/-- savable_loader.py:933-970 `save_state(dst_rank)` on rank `i`, where `x` is the result of `save_state_rank`. `distributed`: whether
`torch.distributed` is available and initialised. -/
def saveCall (distributed : Bool) (i : Nat) (dst : Option Nat) (x : Option K) : Call K :=
  if distributed then
    match dst with
    | none => .allGather x
    | some r => .gather x (decide (i = r)) r
  else .local (.ret (pyOf x))

/-- savable_loader.py:972-1012 `restore_state(state, src_rank)` on rank `i` until the call of `restore_state_rank` -/
def restoreCall (distributed : Bool) (i : Nat) (src : Option Nat) (state : Py K) : Call K :=
  match distributed, state with
  | true, .list l =>
    match src with
    | none => match l[i]? with
      | some x => .local (.ret (pyOf x))
      | none => .local .raise          -- IndexError
    | some r =>
      if i ≠ r then .local .raise      -- `assert state is None`: but it is a list
      else .scatter l r
  | _, st => .local (.ret st)

/-! ## One rank -/

open Verif.Stream

/-- The loader of one rank: the state of its dataset (or of all its worker processes), and whether `_persistent_iterator` is set -/
structure Rank (σ : Type) where
  s : σ
  started : Bool

variable {σ α : Type}

/-- savable_loader.py:880-910 `save_state_rank`; `workers`: there are worker processes. `none` is Python's `None`. (Exceptions of the dataset's own `save_state` are
part of `Verif/Loader/WorkerModel`.) -/
def saveRank (workers : Bool) (D : Dataset σ α K) (r : Rank σ) : Option K :=
  if workers && !r.started then none else some (D.save r.s)

/-- savable_loader.py:912-929 `restore_state_rank` of a new loader -/
def restoreRank (D : Dataset σ α K) : Py K → Res (Rank σ)
  | .none => .ret ⟨D.init, false⟩
  | .one k => .ret ⟨D.resume k, false⟩
  | .list _ => .raise

/-- A new loader -/
def newRank (D : Dataset σ α K) : Rank σ := ⟨D.init, false⟩

/-- The results of `save_state(dst_rank)` on the ranks, called by all of them -/
def saveAll (members : List Nat) (distributed workers : Bool) (D : Nat → Dataset σ α K) (rs : Nat → Rank σ) (dst : Option Nat) (i : Nat) : Res (Py K) :=
  exchange members ((List.range members.length).map fun j => saveCall distributed j dst (saveRank workers (D j) (rs j))) i

/-- The loaders after `restore_state(states i, src_rank)`, called by every rank `i` on a new loader -/
def restoreAll (members : List Nat) (distributed : Bool) (D : Nat → Dataset σ α K) (states : Nat → Py K) (src : Option Nat) (i : Nat) : Res (Rank σ) :=
  match exchange members ((List.range members.length).map fun j => restoreCall distributed j src (states j)) i with
  | .ret st => restoreRank (D i) st
  | .raise => .raise
  | .hang => .hang

end Verif.Ranks
