import Verif.Stream.Spec
import Verif.Wds.LoaderModel

/-! Vocabulary for the properties of `WebdatasetSampleLoaderDataset`. -/

namespace Verif.Wds

open Verif.Stream

variable {C ρ : Type}

/-- The samples of all slices of this worker, in order. -/
def Cfg.samples (c : Cfg C) : List (Smp C) := (c.shards.map (·.samples)).flatten

/-- `shuffle_over_epochs = n`: the unit of iteration is `n` epochs; otherwise one epoch. -/
def Cfg.copies (c : Cfg C) : Nat :=
  match c.mode with
  | .over n => n
  | _ => 1

/-- Everything that is to be delivered in an epoch (in a unit of `n` epochs), without shuffling -/
def Cfg.full (c : Cfg C) : List (Smp C) := (List.replicate c.copies c.samples).flatten

/-- The same samples (as often), and in the same order if nothing is shuffled. -/
def Rel (c : Cfg C) (l l' : List (Smp C)) : Prop := l.Perm l' ∧ (c.mode = .none → l = l')

/-- Assumptions on the parameters: slices have a positive number of samples according to the index (sharder.py:296-299 drops the
others), there is at least one iterator, and exactly one without shuffling (factory.py; asserted at sample_loader.py:419). -/
structure Valid (c : Cfg C) : Prop where
  count : ∀ s ∈ c.shards, 0 < s.count
  pos : 1 ≤ c.parallel
  one : c.mode = .none → c.parallel = 1

/-- A state in which no epoch has been begun: a new dataset object, or one after `restore_state(None)`. -/
def New (R : WRng ρ) (c : Cfg C) (restore : List Key → Option (Smp C)) (s : LdX C ρ) : Prop :=
  s = (loaderD R c restore).init ∨ ∃ t, (loaderD R c restore).Paused true t ∧ s = (loaderD R c restore).reset t

end Verif.Wds
