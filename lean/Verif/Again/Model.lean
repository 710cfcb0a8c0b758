import Verif.Wrap.SimpleModel
import Verif.Wrap.LengthModel
import Verif.Wrap.ShuffleModel
import Verif.Wrap.BlendModel
import Verif.Wrap.BatchModel
import Verif.Wds.LoaderModel

/-!
# A state object that is used more than once (loader without worker processes)

Source: /repo src/megatron/energon/savable_loader.py:912-931 `restore_state_rank` (without workers the state object is handed on to the datasets as it is, there is no
copy), wrappers/base.py:102-111, 196-201, and the `restore_state` of the wrappers.

Many `restore_state` methods assign a list of the state object to an attribute of the dataset (`self._offset = state.offset`), and iterating changes this list in place
(`self._offset[worker_idx] = ...`). So the object the user holds changes while the dataset runs. The model follows the contents of this object, for the one worker there is.
-/

namespace Verif.Stream

variable {ι σ α β κ X KX C C' ρ M : Type}

/-- The object given to `restore_state`, while the dataset that was restored from it runs. `M`: what it contains and which of its lists are attributes of the dataset. -/
structure Held (D : Dataset σ α κ) (M : Type) where
  /-- just after `restore_state` -/
  start : κ → M
  /-- what a second `restore_state` reads from the object -/
  content : M → κ
  /-- one small step of the dataset, from the first state to the second -/
  follow : M → σ → σ → M
  /-- `restore_state(None)` on the dataset: its attributes become new lists, the object stays as it is (e.g. wrappers/base.py:197-198) -/
  detach : M → M

/-- The part of the object that belongs to the wrapper itself. `share old now`: what it contains if it contained `old` and its lists are shared and the
attributes are `now`. `renew x`: in this step the attribute becomes a new list. -/
structure Own (W : Wrapper ι α β X KX) where
  share : KX → KX → KX
  renew : X → Bool

/-- The object part of the wrapper after a step from `x` to `x'`. The `Bool` tells whether the lists are still shared. -/
def Own.follow {W : Wrapper ι α β X KX} (o : Own W) (m : KX × Bool) (x x' : X) : KX × Bool :=
  if m.2 then (if o.renew x then (m.1, false) else (o.share m.1 (W.save x'), true)) else m

/-- wrappers/base.py:105-111: the state object of a wrapper contains the one of its source. -/
def Held.wrap {D : Dataset σ α κ} (h : Held D M) {W : Wrapper Unit α β X KX} (o : Own W) : Held (wrap D W) (M × (KX × Bool)) :=
  { start := fun k => (h.start k.1, (k.2, true))
    content := fun m => (h.content m.1, m.2.1)
    follow := fun m p p' =>
      (match W.act p.2 with
        | .pull _ _ _ => h.follow m.1 p.1 p'.1
        | .reset _ => h.detach m.1
        | _ => m.1, o.follow m.2 p.2 p'.2)
    detach := fun m => (h.detach m.1, (m.2.1, false)) }

/-- blend_dataset.py:117-129, concat_dataset.py:82-90 -/
def Held.wrapMulti {D : Nat → Dataset σ α κ} (h : ∀ i, Held (D i) M) {W : Wrapper Nat α β X KX} (o : Own W) : Held (wrapMulti D W) ((Nat → M) × (KX × Bool)) :=
  { start := fun k => (fun i => (h i).start (k.1 i), (k.2, true))
    content := fun m => (fun i => (h i).content (m.1 i), m.2.1)
    follow := fun m p p' =>
      (match W.act p.2 with
        | .pull i _ _ => upd m.1 i ((h i).follow (m.1 i) (p.1 i) (p'.1 i))
        | .reset _ => fun i => (h i).detach (m.1 i)
        | _ => m.1, o.follow m.2 p.2 p'.2)
    detach := fun m => (fun i => (h i).detach (m.1 i), (m.2.1, false)) }

/-- Iterating a dataset and looking at the state object it was restored from. -/
def Held.watched {D : Dataset σ α κ} (h : Held D M) : Dataset (σ × M) α κ :=
  { init := (D.init, h.start (D.save D.init))
    step := fun p => match D.step p.1 with
      | .yield a s => .yield a (s, h.follow p.2 p.1 s)
      | .skip s => .skip (s, h.follow p.2 p.1 s)
      | .stop s => .stop (s, h.follow p.2 p.1 s)
      | .raise => .raise
    save := fun p => D.save p.1
    resume := fun k => (D.resume k, h.start k)
    reset := fun p => (D.reset p.1, h.detach p.2)
    restoreSample := D.restoreSample
    hasSamples := D.hasSamples }

/-! ## The classes -/

/-- sample_loader.py:688-754: the pending and active shards are copied (lists are built anew), the counters are shared. The random generator keeps the list of states but never
writes into it (rng.py:61-78, 112-117). The memory is the content and whether the counters are shared. -/
def loaderHeld (R : Wds.WRng ρ) (c : Wds.Cfg C) (restore : List Key → Option (Smp C)) : Held (Wds.loaderD R c restore) (Wds.LdState ρ × Bool) :=
  { start := fun k => (k, true)
    content := fun m => m.1
    follow := fun m _ x' => if m.2 then ({ m.1 with count := x'.count, epoch := x'.epoch, epochCount := x'.epochCount }, true) else m
    detach := fun m => (m.1, false) }

/-- filter_dataset.py:85-91, map_dataset.py:212-220 (`SampleIndex.restore_state`, wrappers/base.py:196-201, keeps the list), log_sample_dataset.py:127-133: the counter is
shared. -/
def loopOwn (body : Nat → α → LoopRes β) (rs : List Key → Option β) (has : Bool) : Own (loopW body rs has) := { share := fun _ now => now, renew := fun _ => false }

/-- `FilterDataset` -/
def filterHeld {D : Dataset σ (Smp C) κ} (h : Held D M) (p : FilterFn C) : Held (filterD D p) (M × (Nat × Bool)) := h.wrap (loopOwn _ _ _)
/-- `MapDataset` -/
def mapHeld {D : Dataset σ (Smp C) κ} (h : Held D M) (f : MapFn C C') (st : Bool) : Held (mapD D f st) (M × (Nat × Bool)) := h.wrap (loopOwn _ _ _)
/-- `LogSampleDataset` -/
def logHeld {D : Dataset σ (Smp C) κ} (h : Held D M) : Held (logD D) (M × (Nat × Bool)) := h.wrap (loopOwn _ _ _)
/-- `GcDataset`: nothing of its own (gc_dataset.py; wrappers/base.py:105-111). -/
def gcHeld {D : Dataset σ (Smp C) κ} (h : Held D M) : Held (gcD D) (M × (Nat × Bool)) := h.wrap { share := fun old _ => old, renew := fun _ => false }

/-- batch_dataset.py:244-258 for a plain batcher: the sample index is shared. -/
def batchHeld {D : Dataset σ (Smp C) κ} (h : Held D M) (bs : Nat) (dl : Bool) (f : BatchFn C C') : Held (batchD D bs dl f) (M × (Nat × Bool)) :=
  h.wrap { share := fun _ now => now, renew := fun _ => false }

/-- shuffle_buffer_dataset.py:94-101, buffer.py:133-143: the list of the restore keys in the buffer is shared (and popped from and appended to, buffer.py:73-76, 92-94), the state
of the random generator is not written to. -/
def shuffleHeld {D : Dataset σ (Smp C) κ} (h : Held D M) (R : Rng ρ) (size : Nat) : Held (shuffleD D R size) (M × ((List (List Key) × ρ) × Bool)) :=
  h.wrap { share := fun old now => (now.1, old.2), renew := fun _ => false }

/-- limit_dataset.py:130-136: the offset is shared; line 110 at the end of a pass makes a new list. -/
def limitHeld {D : Dataset σ α κ} (h : Held D M) (length nw w : Nat) (ra : Bool) : Held (limitD D length nw w ra) (M × (Nat × Bool)) :=
  h.wrap { share := fun _ now => now, renew := fun x => match x.ctl with | .finish => true | _ => false }

/-- epochize_dataset.py:125-131: the offset is shared. -/
def epochizeHeld {D : Dataset σ α κ} (h : Held D M) (length nw w : Nat) : Held (epochizeD D length nw w) (M × (Nat × Bool)) :=
  h.wrap { share := fun _ now => now, renew := fun _ => false }

/-- repeat_dataset.py:103-109: the offset is shared. -/
def repeatHeld {D : Dataset σ α κ} (h : Held D M) (reps : Option Nat) : Held (repeatD D reps) (M × (Nat × Bool)) :=
  h.wrap { share := fun _ now => now, renew := fun _ => false }

/-- blend_dataset.py:117-129: only the random generator, not written to. -/
def blendHeld {D : Nat → Dataset σ (Smp C) κ} (h : ∀ i, Held (D i) M) (n : Nat) (R : Rng ρ) : Held (blendD D n R) ((Nat → M) × (ρ × Bool)) :=
  Held.wrapMulti h { share := fun old _ => old, renew := fun _ => false }

/-- concat_dataset.py:82-90: nothing of its own. -/
def concatHeld {D : Nat → Dataset σ (Smp C) κ} (h : ∀ i, Held (D i) M) (n : Nat) : Held (concatD D n) ((Nat → M) × (Unit × Bool)) :=
  Held.wrapMulti h { share := fun old _ => old, renew := fun _ => false }

end Verif.Stream
