import Verif.Stream.Model

/-!
# LimitDataset, EpochizeDataset, RepeatDataset

Source: /repo src/megatron/energon/wrappers/limit_dataset.py, epochize_dataset.py, repeat_dataset.py.
-/

namespace Verif.Stream

variable {σ κ α : Type}

/-- limit_dataset.py:65-70, epochize_dataset.py:68-73: the share of worker `w` of `length`, with `nw` workers. -/
def localShare (length nw w : Nat) : Nat :=
  if nw ≤ 1 then length else length / nw + if w < length % nw then 1 else 0

/-! ### LimitDataset -/

inductive LimCtl (α : Type) where
  /-- fresh generator -/
  | start
  /-- in `for sample, offset in zip(self.dataset, offset_range)`: about to take from the dataset -/
  | loop
  /-- `zip` has taken `a` and is about to take the next offset -/
  | got (a : α)
  /-- after the loop: line 109 `self.dataset.restore_state(None)` -/
  | finish
  /-- lines 110-112 -/
  | again
  | done

/-- `_current_offset` of this worker, and the control point. -/
structure LimX (α : Type) where
  off : Nat
  ctl : LimCtl α

/-- limit_dataset.py:61-112 `__iter__`, with `lim = local_limit`. In the loop the next offset of `offset_range` is always
`_current_offset`. `zip` takes a sample before it sees that the offsets are exhausted (lines 89-94): this sample is
lost (the source is reset anyway). Lines 108-112 reset the source, twice if `reset_after_epoch`. -/
def limitW (lim : Nat) (resetAfter : Bool) (restore : List Key → Option α) (has : Bool) :
    Wrapper Unit α α (LimX α) Nat :=
  { init := ⟨0, .start⟩
    act := fun x =>
      match x.ctl with
      | .start => if x.off < lim then .tau ⟨x.off, .loop⟩ else .tau ⟨x.off, .finish⟩
      | .loop => .pull () (fun a => ⟨x.off, .got a⟩) ⟨x.off, .finish⟩
      | .got a => if x.off < lim then .emit a ⟨x.off + 1, .loop⟩ else .tau ⟨x.off, .finish⟩
      | .finish => .reset ⟨0, if resetAfter then .again else .done⟩
      | .again => .reset ⟨x.off, .done⟩
      | .done => .halt ⟨x.off, .start⟩
    save := fun x => x.off
    resume := fun n => ⟨n, .start⟩
    reset := fun _ => ⟨0, .start⟩
    restoreSample := restore
    hasSamples := has }

/-- limit_dataset.py:28-148 `LimitDataset` in worker `w` of `nw`; `worker_has_samples` (line 114-115) looks at the
total length. -/
def limitD (D : Dataset σ α κ) (length nw w : Nat) (resetAfter : Bool) : Dataset (σ × LimX α) α (κ × Nat) :=
  wrap D (limitW (localShare length nw w) resetAfter D.restoreSample (D.hasSamples && decide (0 < length)))

/-! ### EpochizeDataset -/

inductive EpoCtl (α : Type) where
  /-- fresh generator -/
  | start
  /-- in `for idx in offset_range`, the next `idx` -/
  | next (idx : Nat)
  /-- line 96: `next(self._active_iter)` -/
  | pulling (idx : Nat)
  | got (a : α) (idx : Nat)

/-- `_offset` of this worker, and the control point. -/
structure EpoX (α : Type) where
  off : Nat
  ctl : EpoCtl α

/-- epochize_dataset.py:64-108 `__iter__` and `_infinite`, with `len = local_length`: `offset_range` is
`range(_offset, len)`; `_offset` is set before the sample is taken. The iterator over the source is kept between
the epochs (`_active_iter`) and starts a new pass of the source when one ends. `restore_state(None)` leaves the running
inner generator alive (lines 125-128), this is modelled in `Verif.Again.Rewind` (`reset` is not used in any theorem). -/
def epochizeW (len : Nat) (restore : List Key → Option α) (has : Bool) : Wrapper Unit α α (EpoX α) Nat :=
  { init := ⟨0, .start⟩
    act := fun x =>
      match x.ctl with
      | .start => if x.off < len then .tau ⟨x.off, .next x.off⟩ else .halt ⟨x.off, .start⟩
      | .next idx =>
        if idx < len then .tau ⟨(idx + 1) % len, .pulling idx⟩ else .halt ⟨x.off, .start⟩
      | .pulling idx => .pull () (fun a => ⟨x.off, .got a idx⟩) ⟨x.off, .pulling idx⟩
      | .got a idx => .emit a ⟨x.off, .next (idx + 1)⟩
    save := fun x => x.off
    resume := fun n => ⟨n, .start⟩
    reset := fun _ => ⟨0, .start⟩
    restoreSample := restore
    hasSamples := has }

/-- epochize_dataset.py:28-142 `EpochizeDataset` in worker `w` of `nw`. -/
def epochizeD (D : Dataset σ α κ) (length nw w : Nat) : Dataset (σ × EpoX α) α (κ × Nat) :=
  wrap D (epochizeW (localShare length nw w) D.restoreSample D.hasSamples)

/-! ### RepeatDataset -/

inductive RepCtl (α : Type) where
  /-- fresh generator / the head of the outer loop -/
  | start
  /-- in `for sample in self.dataset` -/
  | loop
  | got (a : α)

/-- `_offset` of this worker, and the control point. -/
structure RepX (α : Type) where
  off : Nat
  ctl : RepCtl α

/-- repeat_dataset.py:57-88 `__iter__`. `reps = none`: infinite (line 59-73; the assertion is evaluated when the
generator starts, and the loop head is passed again for each pass; evaluating the constant assertion again is
harmless). `reps = some n`: line 74-88, `for offset in range(_offset, n): _offset = offset + 1; ...`, i.e. at the
loop head the next `offset` is `_offset`. -/
def repeatW (reps : Option Nat) (innerHas : Bool) (restore : List Key → Option α) :
    Wrapper Unit α α (RepX α) Nat :=
  { init := ⟨0, .start⟩
    act := fun x =>
      match x.ctl with
      | .start =>
        match reps with
        | none => if innerHas then .tau ⟨x.off + 1, .loop⟩ else .raise
        | some n => if x.off < n then .tau ⟨x.off + 1, .loop⟩ else .halt ⟨x.off, .start⟩
      | .loop => .pull () (fun a => ⟨x.off, .got a⟩) ⟨x.off, .start⟩
      | .got a => .emit a ⟨x.off, .loop⟩
    save := fun x => x.off
    resume := fun n => ⟨n, .start⟩
    reset := fun _ => ⟨0, .start⟩
    restoreSample := restore
    hasSamples := innerHas }

/-- repeat_dataset.py:28-120 `RepeatDataset`. -/
def repeatD (D : Dataset σ α κ) (reps : Option Nat) : Dataset (σ × RepX α) α (κ × Nat) :=
  wrap D (repeatW reps D.hasSamples D.restoreSample)

end Verif.Stream
