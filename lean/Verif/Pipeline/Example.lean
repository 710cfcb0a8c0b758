import Verif.Pipeline.Restore
import Verif.Stream.Example

/-! # A concrete training run, and a counterexample -/

namespace Verif.Pipeline

open Verif.Stream Verif.Wds

/-- A tar file with `n` samples with one part each. -/
def exTarN (first : Nat) (n : Nat) : List (Member Nat) :=
  (List.range n).map fun i => ⟨1024, true, (Nat.repr i ++ ".txt").toList, first + i⟩

/-- A dataset with one shard of `n` samples. -/
def exDisk (name : String) (first n : Nat) : Disk Nat Nat :=
  { shards := [⟨⟨name, 0, n, none, none⟩, []⟩]
    tars := fun s => if s = name then exTarN first n else []
    load := fun _ a => .ok ((a.content.parts.map (·.2)).sum) }

theorem exTarN_sized (first n : Nat) : Sized (exTarN first n) := by
  intro m hm
  obtain ⟨i, _, rfl⟩ := List.mem_map.1 hm
  exact Nat.succ_pos _

theorem exDisk_ok (name : String) (first n : Nat) (h : n ≤ 2 ^ 48) : (exDisk name first n).Ok where
  whole := by
    intro s hs c hc
    simp only [exDisk, List.mem_singleton] at hs
    subst hs
    simp only [Sharder.Subshards.cols, List.mem_singleton] at hc
    subst hc
    rfl
  nonempty := by simp [exDisk]
  size := by simpa [exDisk, Sharder.total] using h
  names := by simp [exDisk]
  column := by simp [exDisk]
  tars := by
    intro s
    simp only [exDisk]
    split
    · exact exTarN_sized _ _
    · intro m hm; cases hm
  parallel := by simp [exDisk]
  maxSamples := by simp [exDisk]
  mode := by simp [exDisk]

/-- Random generators that count. -/
def exR : Rngs Nat :=
  { reader := fun _ => exRng
    blend := { seed := 0, below := fun g n => (g % n, g + 1), below_lt := fun g _ h => Nat.mod_lt g h
               choice := fun g n => (g % n, g + 1), choice_lt := fun g _ h => Nat.mod_lt g h }
    shuffle := { seed := 0, below := fun g n => (g % n, g + 1), below_lt := fun g _ h => Nat.mod_lt g h
                 choice := fun g n => (g % n, g + 1), choice_lt := fun g _ h => Nat.mod_lt g h } }

/-- Encode by doubling; batches are sums. -/
def exE : Encoder Nat Nat :=
  { cook := none, encode := some (.plain (fun _ a => .ok (2 * a.content)) true), pack := none, group := none
    batch := fun _ b => .ok (b.map (·.content)).sum, batchOverridden := true, encodeBatch := none }

def exO : TrainOpts := ⟨some 2, false, none, 0, some 3, true⟩

/-- Saving after `k` events and resuming shows other events (within `n` steps). -/
def brokenAfter (X : Except BErr (AnyDs Nat)) (n k : Nat) : Bool :=
  match X with
  | .ok A =>
    match A.D.after n k A.D.init with
    | some s => decide ((A.D.eval n s).take 1 ≠ (A.D.eval n (A.D.resume (A.D.save s))).take 1) &&
        decide (((A.D.eval n s).take 1).length = ((A.D.eval n (A.D.resume (A.D.save s))).take 1).length)
    | none => false
  | .error _ => false

theorem broken_spec {X : Except BErr (AnyDs Nat)} {n k : Nat} (h : brokenAfter X n k = true) :
    ∃ A, X = .ok A ∧ ¬ A.D.ResumesExactly := by
  unfold brokenAfter at h
  split at h
  · rename_i A
    split at h
    · rename_i s hs
      rw [Bool.and_eq_true] at h
      exact ⟨A, rfl, fun hr => Dataset.not_equiv n 1 (of_decide_eq_true h.1) (of_decide_eq_true h.2)
        (hr s (Dataset.after_paused hs .init))⟩
    · cases h
  · cases h

/-- **C65 is violated** if a blended dataset has fewer samples than there are workers and a shuffle buffer is used: with datasets of 1 and 6 samples and 2 workers, the second worker has no samples of
the first dataset; the samples of the second one get keys that name the first dataset, and restoring the shuffle buffer fails. (All other hypotheses of `C65_train_resumes_partial` hold.) -/
theorem C65_violated_small_part :
    ∃ (ds : List (Disk Nat Nat)) (w : Sharder.WorkerConfig) (i : Nat) (A : AnyDs Nat), ds ≠ [] ∧ (∀ d ∈ ds, d.Ok) ∧ w.rank < w.worldSize ∧ i < w.workers ∧
      exE.Simple exO.packing ∧ exE.Fits exO.batchSize exO.packing ∧ exO.epochLength = 0 ∧
      trainDs exR exE ds exO w i = .ok A ∧ ¬ A.D.ResumesExactly := by
  obtain ⟨A, h1, h2⟩ := broken_spec (X := trainDs exR exE [exDisk "a" 10 1, exDisk "b" 100 6] exO ⟨0, 1, 2⟩ 1) (n := 60) (k := 1) (by decide +kernel)
  refine ⟨_, _, _, A, by simp, ?_, by decide, by decide, ?_, ?_, rfl, h1, h2⟩
  · intro d hd
    simp only [List.mem_cons, List.not_mem_nil, or_false] at hd
    rcases hd with rfl | rfl
    · exact exDisk_ok _ _ _ (by decide)
    · exact exDisk_ok _ _ _ (by decide)
  · exact ⟨by simp [exE], by simp [exE, UserMap.Plain], by simp [exE], rfl, by simp [exO]⟩
  · exact ⟨by simp [exO], by simp [exO]⟩

/-- The hypotheses of the theorems are satisfiable: two datasets with 4 and 6 samples, 2 workers. -/
example : ∃ A, trainDs exR exE [exDisk "a" 10 4, exDisk "b" 100 6] exO ⟨0, 1, 2⟩ 0 = .ok A ∧ A.D.ResumesUpToEnd ∧
    (exO.epochLength = 0 → A.D.ResumesExactly) := by
  refine C65_train_resumes_partial exR exE _ exO _ _ (by simp) ?_ (by decide) (by decide)
    ⟨by simp [exE], by simp [exE, UserMap.Plain], by simp [exE], rfl, by simp [exO]⟩ ⟨by simp [exO], by simp [exO]⟩
  intro d hd
  simp only [List.mem_cons, List.not_mem_nil, or_false] at hd
  rcases hd with rfl | rfl
  · exact ⟨exDisk_ok _ _ _ (by decide), by unfold Disk.Enough; decide⟩
  · exact ⟨exDisk_ok _ _ _ (by decide), by unfold Disk.Enough; decide⟩

/-- What a worker delivers. -/
def delivered (X : Except BErr (AnyDs Nat)) (n : Nat) : List (Option Nat) :=
  match X with
  | .ok A => (A.D.eval n A.D.init).map fun e => match e with | .item a => some a.content | _ => none
  | .error _ => []

/-- The run is not trivial. -/
example : delivered (trainDs exR exE [exDisk "a" 10 4, exDisk "b" 100 6] exO ⟨0, 1, 2⟩ 0) 100 =
    [some 42, some 220, some 404, some 222, some 44] := by decide +kernel

example : exE.Keyed (some 2) none :=
  ⟨by simp [exE], by simp [exE, UserMap.stateless], by simp [exE], by simp, rfl, by
    intro n hn
    cases hn
    exact ⟨rfl, by decide, fun _ _ => rfl⟩⟩

/-- With grouping (see `C66_violated_grouping`) batches are delivered. -/
example : delivered (valDs exR { exE with group := some fun _ a => .group (a.content % 4) none } [exDisk "a" 10 4, exDisk "b" 100 7] ⟨2, false, none, none, false⟩ ⟨1, 2, 2⟩ 0) 60 =
    [some 232, some 210, none, some 232] := by decide +kernel

end Verif.Pipeline
