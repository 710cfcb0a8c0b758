import Verif.Stream.Model

/-!
# What a user observes of a dataset

Vocabulary for stating properties of datasets. Nothing here refers to a particular dataset class.
-/

namespace Verif.Stream

/-- The possible results of a call of `next`: a sample, end of the pass, an exception. -/
inductive Out (σ α : Type) where
  | item (a : α) (s : σ)
  | fin (s : σ)
  | err

/-- `Obs step s o`: calling `next` in state `s` terminates with result `o` (after finitely many internal
steps). If no `o` has `Obs step s o` the call hangs forever. -/
inductive Obs {σ α : Type} (step : σ → Step σ α) : σ → Out σ α → Prop where
  | item {s a s'} : step s = .yield a s' → Obs step s (.item a s')
  | fin {s s'} : step s = .stop s' → Obs step s (.fin s')
  | err {s} : step s = .raise → Obs step s .err
  | skip {s s' o} : step s = .skip s' → Obs step s' o → Obs step s o

/-- Observable events. -/
inductive Ev (α : Type) where
  | item (a : α)
  | fin
  | err
deriving DecidableEq

variable {σ α κ C : Type}

/-- `D.Trace s evs`: iterating (pass after pass) from state `s` shows the events `evs` first. -/
inductive Dataset.Trace (D : Dataset σ α κ) : σ → List (Ev α) → Prop where
  | nil {s} : D.Trace s []
  | item {s a s' es} : Obs D.step s (.item a s') → D.Trace s' es → D.Trace s (.item a :: es)
  | fin {s s' es} : Obs D.step s (.fin s') → D.Trace s' es → D.Trace s (.fin :: es)
  | err {s} : Obs D.step s .err → D.Trace s [.err]

/-- Two states are indistinguishable by iterating: they show the same events for ever. -/
def Dataset.Equiv (D : Dataset σ α κ) (s t : σ) : Prop := ∀ evs, D.Trace s evs ↔ D.Trace t evs

/-- `D.Run s evs s'`: from `s` the events `evs` (samples and ends of passes) are observed in a row and
then the state is `s'`. -/
inductive Dataset.Run (D : Dataset σ α κ) : σ → List (Ev α) → σ → Prop where
  | nil {s} : D.Run s [] s
  | item {s a s' es s''} : Obs D.step s (.item a s') → D.Run s' es s'' → D.Run s (.item a :: es) s''
  | fin {s s' es s''} : Obs D.step s (.fin s') → D.Run s' es s'' → D.Run s (.fin :: es) s''

/-- `D.Items s xs s'`: from `s` the samples `xs` are delivered in a row and `s'` is reached. -/
def Dataset.Items (D : Dataset σ α κ) (s : σ) (xs : List α) (s' : σ) : Prop :=
  D.Run s (xs.map .item) s'

/-- The events of a complete pass. -/
def passEvs (xs : List α) : List (Ev α) := xs.map .item ++ [.fin]

/-- `D.Pass s xs s'`: from `s` exactly the samples `xs` are delivered and then the pass ends; `s'` is the
state at the beginning of the next pass. -/
def Dataset.Pass (D : Dataset σ α κ) (s : σ) (xs : List α) (s' : σ) : Prop := D.Run s (passEvs xs) s'

/-- States in which user code can have control: initially, after a sample or an end of pass was delivered,
after resuming from a saved state in a new process, and (only if `r`) after a call of
`restore_state(None)`; any number of times, in any order. -/
inductive Dataset.Paused (D : Dataset σ α κ) (r : Bool) : σ → Prop where
  | init : D.Paused r D.init
  | item {s a s'} : D.Paused r s → Obs D.step s (.item a s') → D.Paused r s'
  | fin {s s'} : D.Paused r s → Obs D.step s (.fin s') → D.Paused r s'
  | resume {s} : D.Paused r s → D.Paused r (D.resume (D.save s))
  | reset {s} : r = true → D.Paused r s → D.Paused r (D.reset s)

/-- The dataset resumes exactly: saving in any state in which user code has control, and restoring in a new
process, shows the same events for ever as the uninterrupted run. With `r = true` the history before may
contain calls of `restore_state(None)`. -/
def Dataset.ResumesExactly (D : Dataset σ α κ) (r : Bool := false) : Prop :=
  ∀ s, D.Paused r s → D.Equiv s (D.resume (D.save s))

/-- Like `ResumesExactly`, except that after the last sample of a pass, when the next call of `next` would report the
end of the pass, the resumed run may begin with the next pass without reporting this end again. -/
def Dataset.ResumesUpToEnd (D : Dataset σ α κ) (r : Bool := false) : Prop :=
  ∀ s, D.Paused r s → D.Equiv s (D.resume (D.save s)) ∨
    ∃ s', Obs D.step s (.fin s') ∧ D.Equiv s' (D.resume (D.save s))

/-- Leave out the first report of an end of pass. -/
def eraseFin : List (Ev α) → List (Ev α)
  | [] => []
  | .fin :: es => es
  | e :: es => e :: eraseFin es

/-- `t` shows the same events as `s`, except that the next end of pass is not reported. -/
def Dataset.MissesEnd (D : Dataset σ α κ) (s t : σ) : Prop :=
  ∀ evs, D.Trace t evs ↔ ∃ evs', D.Trace s evs' ∧ eraseFin evs' = evs

/-- The samples among some events. -/
def itemsOf : List (Ev α) → List α
  | [] => []
  | .item a :: es => a :: itemsOf es
  | _ :: es => itemsOf es

/-- Every sample delivered in any run can be restored from its restore key. -/
def Dataset.RestoresSamples (D : Dataset σ (Smp C) κ) (r : Bool := false) : Prop :=
  ∀ s a s', D.Paused r s → Obs D.step s (.item a s') → D.restoreSample a.key = some a

/-- `restore_state(None)` brings the dataset back to the behaviour of a new one. -/
def Dataset.ResetsToInit (D : Dataset σ α κ) : Prop :=
  ∀ s, D.Paused true s → D.Equiv (D.reset s) D.init

/-- Every call of `next` delivers a sample or an end of pass: it neither hangs nor raises. -/
def Dataset.Live (D : Dataset σ α κ) (r : Bool := false) : Prop :=
  ∀ s, D.Paused r s → ∃ o, Obs D.step s o ∧ o ≠ .err

/-- No pass ever ends. -/
def Dataset.NeverEnds (D : Dataset σ α κ) (r : Bool := false) : Prop :=
  ∀ s s', D.Paused r s → ¬ Obs D.step s (.fin s')

/-- A sample the dataset can deliver. -/
def Dataset.Yields (D : Dataset σ α κ) (r : Bool) (a : α) : Prop :=
  ∃ s s', D.Paused r s ∧ Obs D.step s (.item a s')

/-- Apply a function to the delivered sample. -/
def Step.mapA {β : Type} (f : α → β) : Step σ α → Step σ β
  | .yield a s => .yield (f a) s
  | .skip s => .skip s
  | .stop s => .stop s
  | .raise => .raise

/-- Look at the samples only through `f`. -/
def Dataset.mapOut {β : Type} (D : Dataset σ α κ) (f : α → β) : Dataset σ β κ :=
  { D with step := fun s => (D.step s).mapA f, restoreSample := fun k => (D.restoreSample k).map f }

/-- Look only at the contents of the samples, not at their restore keys. -/
def Dataset.contents (D : Dataset σ (Smp C) κ) : Dataset σ C κ := D.mapOut (·.content)

end Verif.Stream
