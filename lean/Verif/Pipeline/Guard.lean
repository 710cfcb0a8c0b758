import Verif.Pipeline.Model

/-! # Iterating does not depend on `restore_sample` of the dataset itself -/

namespace Verif.Stream

variable {σ κ α : Type}

/-- `D` with another `restore_sample`. -/
def Dataset.withRestore (D : Dataset σ α κ) (f : List Key → Option α) : Dataset σ α κ := { D with restoreSample := f }

namespace Dataset
variable {D : Dataset σ α κ} {f : List Key → Option α}

theorem withRestore_paused {r : Bool} {s : σ} : (D.withRestore f).Paused r s ↔ D.Paused r s := by
  constructor
  · intro h
    induction h with
    | init => exact .init
    | item _ h ih => exact .item ih h
    | fin _ h ih => exact .fin ih h
    | resume _ ih => exact .resume ih
    | reset hr _ ih => exact .reset hr ih
  · intro h
    induction h with
    | init => exact .init (D := D.withRestore f)
    | item _ h ih => exact .item (D := D.withRestore f) ih h
    | fin _ h ih => exact .fin (D := D.withRestore f) ih h
    | resume _ ih => exact .resume (D := D.withRestore f) ih
    | reset hr _ ih => exact .reset (D := D.withRestore f) hr ih

theorem withRestore_trace {s : σ} {evs : List (Ev α)} : (D.withRestore f).Trace s evs ↔ D.Trace s evs := by
  constructor
  · intro h
    induction h with
    | nil => exact .nil
    | item h _ ih => exact .item h ih
    | fin h _ ih => exact .fin h ih
    | err h => exact .err h
  · intro h
    induction h with
    | nil => exact .nil (D := D.withRestore f)
    | item h _ ih => exact .item (D := D.withRestore f) h ih
    | fin h _ ih => exact .fin (D := D.withRestore f) h ih
    | err h => exact .err (D := D.withRestore f) h

theorem withRestore_run {s s' : σ} {evs : List (Ev α)} : (D.withRestore f).Run s evs s' ↔ D.Run s evs s' := by
  constructor
  · intro h
    induction h with
    | nil => exact .nil
    | item h _ ih => exact .item h ih
    | fin h _ ih => exact .fin h ih
  · intro h
    induction h with
    | nil => exact .nil (D := D.withRestore f)
    | item h _ ih => exact .item (D := D.withRestore f) h ih
    | fin h _ ih => exact .fin (D := D.withRestore f) h ih

theorem withRestore_resumes {r : Bool} (h : D.ResumesExactly r) : (D.withRestore f).ResumesExactly r := by
  intro s hs evs
  rw [withRestore_trace, withRestore_trace]
  exact h s (withRestore_paused.1 hs) evs

theorem withRestore_upToEnd {r : Bool} (h : D.ResumesUpToEnd r) : (D.withRestore f).ResumesUpToEnd r := by
  intro s hs
  rcases h s (withRestore_paused.1 hs) with h | ⟨s', h1, h2⟩
  · exact .inl fun evs => by rw [withRestore_trace, withRestore_trace]; exact h evs
  · exact .inr ⟨s', h1, fun evs => by rw [withRestore_trace, withRestore_trace]; exact h2 evs⟩

theorem withRestore_neverEnds {r : Bool} (h : D.NeverEnds r) : (D.withRestore f).NeverEnds r :=
  fun s s' hs => h s s' (withRestore_paused.1 hs)

end Dataset
end Verif.Stream

namespace Verif.Pipeline
open Verif.Stream
variable {C : Type}

theorem onlyIf_resumes {st r : Bool} {A : AnyDs C} (h : A.D.ResumesExactly r) : (onlyIf st A).D.ResumesExactly r := Dataset.withRestore_resumes h
theorem onlyIf_neverEnds {st r : Bool} {A : AnyDs C} (h : A.D.NeverEnds r) : (onlyIf st A).D.NeverEnds r := Dataset.withRestore_neverEnds h
theorem onlyIf_upToEnd {st r : Bool} {A : AnyDs C} (h : A.D.ResumesUpToEnd r) : (onlyIf st A).D.ResumesUpToEnd r := Dataset.withRestore_upToEnd h

theorem onlyIf_restores {r : Bool} {A : AnyDs C} (h : A.D.RestoresSamples r) : (onlyIf true A).D.RestoresSamples r := h

theorem onlyIf_none (A : AnyDs C) (k : List Key) : (onlyIf false A).D.restoreSample k = none := rfl

end Verif.Pipeline
