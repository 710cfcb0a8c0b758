import Verif.Sharder.Model

/-!
# What the sharding properties are about: the samples a slice stands for

This file is the specification vocabulary: it does not use any function of the model except the
data types.
-/

namespace Verif.Sharder

/-- Sample number `j` of a (sub)shard: for every joined column the file name and the absolute index
of the sample in that file. -/
def Subshards.sampleAt (s : Subshards) (j : ℕ) : List (String × ℕ) :=
  s.cols.map fun c => (c.name, c.offset + j)

/-- The samples a (sub)shard consists of, in reading order. -/
def Subshards.samples (s : Subshards) : List (List (String × ℕ)) :=
  (List.range s.head.count).map s.sampleAt

/-- The samples read when slices are read one after the other. -/
def samplesOf (l : List Subshards) : List (List (String × ℕ)) := l.flatMap Subshards.samples

/-- Shards as they come out of the dataset's metadata: every column starts at sample 0
(metadata.py:57-66 creates `ShardInfo(offset=0, count=...)`). -/
def WholeShards (shards : List Subshards) : Prop :=
  ∀ s ∈ shards, ∀ c ∈ s.cols, c.offset = 0

/-- The total number of samples of a dataset. -/
def total (shards : List Subshards) : ℕ := (shards.map (·.head.count)).sum

end Verif.Sharder
