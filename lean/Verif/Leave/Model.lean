import Verif.Leave.Lemmas
import Verif.Pipeline.Model

/-!
# Leaving a loop: what each dataset class keeps

Per class: the state after its generator was dropped and a new one was created. Attributes of the object are kept; the local variables of the generator (the
control point, and what is named in the comment) are lost. Nothing observable in these generators runs when they are closed: the `yield`s are not inside `with`
blocks, the only `finally` around one (savable_loader.py:107-109) does nothing in this case, and the handlers around them (map_dataset.py:167-173, packing_dataset.py:247-252, group_batch_dataset.py:168-172) do not catch `GeneratorExit`, which is
no `Exception`.
-/

namespace Verif.Stream

variable {σ κ C C' K ρ α : Type}

/-- flavors/webdataset/sample_loader.py:286-508: the slices that are open, their positions and the pending ones are attributes (`_active_shards_state`,
`_pending_shards`); the open readers are local and opened again from the positions (lines 303-321). -/
def ldLeave (x : Wds.LdX C ρ) : Wds.LdX C ρ := { x with ctl := .fresh }

/-- wrappers/filter_dataset.py:64-69, map_dataset.py:109-173 (plain function), log_sample_dataset.py:113-118, gc_dataset.py:96-119 -/
def loopLeave (x : LoopX α) : LoopX α := ⟨x.idx, .loop⟩

/-- wrappers/map_dataset.py:109-173 with a generator function: `_generator_sample_keys`, `_generator_offsets` and the sample index are attributes, the generator of the
user function is lost. -/
def genLeave (x : GenX C C') : GenX C C' := { x with ctl := .start }

/-- wrappers/blend_dataset.py:78-95: the random generator is an attribute. -/
def blendLeave (x : BlendX ρ C) : BlendX ρ C := ⟨x.rng, .start⟩

/-- wrappers/concat_dataset.py:50-57: which part is active is known to the generator only. -/
def concatLeave (_ : ConcatX C) : ConcatX C := .part 0

/-- wrappers/shuffle_buffer_dataset.py:58-75: the buffer is an attribute. (`dead`: the restored buffer could not be built, see `shuffleW`.) -/
def shufLeave (x : ShufX ρ C) : ShufX ρ C :=
  match x.ctl with
  | .dead => x
  | _ => { x with ctl := .fill }

/-- wrappers/batch_dataset.py:129-203: the samples of the batch being built are local variables. -/
def batchLeave (x : BatchX C) : BatchX C := ⟨x.idx, [], [], .loop⟩

/-- wrappers/group_batch_dataset.py:143-215: the buckets are an attribute. -/
def groupLeave (x : GroupX C K) : GroupX C K := { x with ctl := .loop }

/-- wrappers/packing_dataset.py:168-283: both buffers and the lengths are attributes, the rest of a pack that the final packer has not given yet is lost. -/
def packLeave (x : PackX C C') : PackX C C' :=
  match x.ctl with
  | .dead => x
  | _ => { x with ctl := .check 0 }

/-- wrappers/epochize_dataset.py:56-102: the offset and the iterator over the source (`_active_iter`) are attributes: the generators of the source are *not* dropped. -/
def epochLeave (x : EpoX α) : EpoX α := ⟨x.off, .start⟩

/-- wrappers/limit_dataset.py:60-109 -/
def limitLeave (x : LimX α) : LimX α := ⟨x.off, .start⟩

end Verif.Stream
