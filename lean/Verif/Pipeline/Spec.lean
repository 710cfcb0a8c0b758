import Verif.Sharder.Spec
import Verif.Wds.ReaderSpec
import Verif.Pipeline.Model

/-! # Vocabulary for the assembled datasets -/

namespace Verif.Pipeline

open Verif.Stream Verif.Wds

variable {B C K ρ : Type}

/-- A well-formed prepared dataset with sensible options: shards are whole files with different names, there is one column, the tar
files are well-formed, at most `2^48` samples, and the options make sense (a number of parallel iterators ≥ 1, `max_samples_per_sequence`
positive, `shuffle_over_epochs` ≥ 1 or -1 when training). -/
structure Disk.Ok (d : Disk B C) : Prop where
  whole : Sharder.WholeShards d.shards
  nonempty : d.shards ≠ []
  size : Sharder.total d.shards ≤ 2 ^ 48
  names : (d.shards.map (·.head.name)).Nodup
  column : ∀ s ∈ d.shards, s.tail = []
  tars : ∀ n, Sized (d.tars n)
  parallel : ∀ n, d.parallel = some n → 1 ≤ n
  maxSamples : ∀ n, d.maxSamples = some n → 1 ≤ n
  mode : d.shuffleOverEpochs ≠ .none

/-- The index agrees with the tar files: the number of samples given for a shard is the number of samples in the file. -/
def Disk.Counted (d : Disk B C) : Prop := ∀ s ∈ d.shards, (groups (entries (d.tars s.head.name))).length = s.head.count

/-- There are at least as many samples as workers in all ranks. -/
def Disk.Enough (d : Disk B C) (w : Sharder.WorkerConfig) : Prop := w.globalWorkers ≤ Sharder.total d.shards

end Verif.Pipeline
