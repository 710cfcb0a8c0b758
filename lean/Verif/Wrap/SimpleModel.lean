import Verif.Stream.Model

/-!
# Wrappers that treat one sample at a time

Source: /repo src/megatron/energon/wrappers/filter_dataset.py, map_dataset.py (plain functions),
log_sample_dataset.py, gc_dataset.py.

All four have the loop `for sample in self.dataset: r = f(sample); counter += 1; maybe yield`.
-/

namespace Verif.Stream

variable {σ α β κ C C' : Type}

/-- What the body of the loop does with one sample. -/
inductive LoopRes (β : Type) where
  /-- yield `b` -/
  | out (b : β)
  /-- nothing is yielded for this sample -/
  | drop
  /-- an exception leaves the generator -/
  | die

/-- Control point inside `for sample in self.dataset`. -/
inductive LoopCtl (α : Type) where
  /-- about to call `next` on the inner iterator (also: the fresh generator) -/
  | loop
  /-- the body runs for sample `a` -/
  | got (a : α)
  /-- the inner iterator is exhausted -/
  | done

/-- Attributes and control point: `idx` is the counter of the wrapper (`SampleIndex` or `_step`). -/
structure LoopX (α : Type) where
  idx : Nat
  ctl : LoopCtl α

/-- The loop; `body n a` is what happens for sample `a` if the counter is `n`. The counter is increased for each
sample of the source, also if the sample is dropped (`SampleIndex.ctx()` calls `get_next` before the
user function runs, wrappers/base.py:146-149, 155-170). `save_state` stores the counter, `restore_state` sets
it, `restore_state(None)` zeroes it. -/
def loopW (body : Nat → α → LoopRes β) (restore : List Key → Option β) (has : Bool) :
    Wrapper Unit α β (LoopX α) Nat :=
  { init := ⟨0, .loop⟩
    act := fun x =>
      match x.ctl with
      | .loop => .pull () (fun a => ⟨x.idx, .got a⟩) ⟨x.idx, .done⟩
      | .got a =>
        match body x.idx a with
        | .out b => .emit b ⟨x.idx + 1, .loop⟩
        | .drop => .tau ⟨x.idx + 1, .loop⟩
        | .die => .raise
      | .done => .halt ⟨x.idx, .loop⟩
    save := fun x => x.idx
    resume := fun n => ⟨n, .loop⟩
    reset := fun _ => ⟨0, .loop⟩
    restoreSample := restore
    hasSamples := has }

/-! ### FilterDataset -/

/-- Result of the user's filter function: a truth value or an exception (`none`). The function gets the sample
and may look at the sample index of this wrapper. -/
abbrev FilterFn (C : Type) := Nat → Smp C → Option Bool

/-- filter_dataset.py:64-68: body of the loop (an exception of `filter_fn` is not handled). -/
def filterBody (p : FilterFn C) (n : Nat) (a : Smp C) : LoopRes (Smp C) :=
  match p n a with
  | some true => .out a
  | some false => .drop
  | none => .die

/-- filter_dataset.py:31-100 `FilterDataset`; `restore_sample` delegates (line 99-100). -/
def filterD (D : Dataset σ (Smp C) κ) (p : FilterFn C) : Dataset (σ × LoopX (Smp C)) (Smp C) (κ × Nat) :=
  wrap D (loopW (filterBody p) D.restoreSample D.hasSamples)

/-! ### MapDataset with a plain function -/

/-- Result of the user's map function. -/
inductive MapRes (C : Type) where
  | ok (c : C)
  /-- raises `SkipSample` -/
  | skip
  /-- raises an exception that is given to the error handler, which returns (default: `log_exception`,
  _log_exception.py) -/
  | fail
  /-- raises one of `SYSTEM_EXCEPTIONS` (errors.py), or the error handler raises -/
  | fatal

/-- A user function: it sees its sample index and the sample. It returns the new content; the
restore key of the sample is carried over (as `Sample.derive_from` does). Functions with hidden state are not
modelled (they are not resumable by construction). -/
abbrev MapFn (C C' : Type) := Nat → Smp C → MapRes C'

/-- map_dataset.py:138-173, the branch for a plain result: `add_sample_restore_key(mapped, sample_idx, src=self)`,
`SkipSample` and handled exceptions drop the sample, system exceptions are re-raised. -/
def mapBody (f : MapFn C C') (n : Nat) (a : Smp C) : LoopRes (Smp C') :=
  match f n a with
  | .ok c => .out (Smp.addKey [.str "MapDataset", .num n] ⟨c, a.key⟩)
  | .skip => .drop
  | .fail => .drop
  | .fatal => .die

/-- map_dataset.py:237-264 `restore_sample` for a plain function (asserts `stateless_map_fn`). -/
def mapRestore (D : Dataset σ (Smp C) κ) (f : MapFn C C') (stateless : Bool) : List Key → Option (Smp C')
  | .str t :: .num n :: rest =>
    if t = "MapDataset" && stateless then
      match D.restoreSample rest with
      | some a =>
        match f n a with
        | .ok c => some (Smp.addKey [.str "MapDataset", .num n] ⟨c, a.key⟩)
        | _ => none
      | none => none
    else none
  | _ => none

/-- map_dataset.py:59-284 `MapDataset` for a plain (non generator) function. -/
def mapD (D : Dataset σ (Smp C) κ) (f : MapFn C C') (stateless : Bool) :
    Dataset (σ × LoopX (Smp C)) (Smp C') (κ × Nat) :=
  wrap D (loopW (mapBody f) (mapRestore D f stateless) D.hasSamples)

/-! ### LogSampleDataset, GcDataset -/

/-- log_sample_dataset.py:107-118: the samples are logged (not observable here) and passed on. The counter is
`_step`. -/
def logD (D : Dataset σ (Smp C) κ) : Dataset (σ × LoopX (Smp C)) (Smp C) (κ × Nat) :=
  wrap D (loopW (fun _ a => .out a) D.restoreSample D.hasSamples)

/-- gc_dataset.py:97-117: the samples are passed on, now and then the garbage collector runs (not observable).
The counter `iter` is local to the generator and not saved, so the state does not contain it; the model keeps
`idx` at 0. The `GcFreezeError` for a missing `gc_init_worker` is not modelled. -/
def gcD (D : Dataset σ (Smp C) κ) : Dataset (σ × LoopX (Smp C)) (Smp C) (κ × Nat) :=
  wrap D { loopW (fun _ a => .out a) D.restoreSample D.hasSamples with save := fun _ => 0 }

end Verif.Stream
