import Verif.Leave.Pipeline

/-! # C80: leaving loops: concrete cases and counterexamples -/

namespace Verif.Pipeline

open Verif.Stream Verif.Wds Verif.Loader

/-- The loader over what was built delivers other samples if loops are left as in the script `l` (`false`: take a sample, `true`: leave and begin a new loop) than
in `n` calls without leaving. -/
def leaveBroken (X : Except BErr (LDs Nat)) (savable : Bool) (fuel n : Nat) (l : List Bool) : Bool :=
  match X with
  | .ok A => leaveDiffers (loaderL savable A 0).D (loaderL savable A 0).leave fuel n l
  | .error _ => false

theorem leaveBroken_spec {X : Except BErr (LDs Nat)} {savable : Bool} {fuel n : Nat} {l : List Bool} (h : leaveBroken X savable fuel n l = true) :
    ∃ A, X = .ok A ∧ ¬ (loaderL savable A 0).D.LeavesUpToEnd (loaderL savable A 0).leave := by
  unfold leaveBroken at h
  split at h
  · exact ⟨_, rfl, leaveDiffers_spec h⟩
  · cases h

/-- What is delivered in a life. -/
def played (X : Except BErr (LDs Nat)) (savable : Bool) (fuel : Nat) (l : List Bool) : List (Op Nat) :=
  match X with
  | .ok A =>
    match (loaderL savable A 0).D.play (loaderL savable A 0).leave fuel l (loaderL savable A 0).D.init with
    | some (ops, _) => ops.map fun | .item a => .item a.content | .fin => .fin | .resume => .resume | .leave => .leave
    | none => []
  | .error _ => []

/-- One process without workers. -/
def exW : Sharder.WorkerConfig := ⟨0, 1, 0⟩

/-- Each sample gives two; the function uses the sample index (`get_sample_rng` is seeded with it, for example). -/
def exGen : GenFn Nat Nat := fun n a => ([a.content, a.content + n], .done)

/-- The final packer as a generator function: gives the samples of the pack one by one. -/
def exSplit : FinalFn Nat Nat := fun _ p => (p.map (·.content), .done)

/-- Without batching. -/
def exNoBatch : Encoder Nat Nat := { exE with batchOverridden := false }

/-- **C80 is violated** with a generator function for `encode_sample`: if the loop is left in the middle of the samples of a source sample, the function is called again for this
source sample with the next sample index, and the rest of its samples can be different. -/
theorem C80_violated_generator :
    ∃ (ds : List (Disk Nat Nat)) (E : Encoder Nat Nat) (o : TrainOpts) (A : LDs Nat), (∀ d ∈ ds, d.Ok ∧ d.Enough exW) ∧ E.Fits o.batchSize o.packing ∧ o.epochLength = 0 ∧
      trainDsL exR E ds o exW 0 = .ok A ∧ ¬ (loaderL true A 0).D.LeavesUpToEnd (loaderL true A 0).leave := by
  obtain ⟨A, h1, h2⟩ := leaveBroken_spec (X := trainDsL exR { exNoBatch with encode := some (.gen exGen true) } [exDisk "a" 10 4] ⟨none, false, none, 0, none, false⟩ exW 0)
    (savable := true) (fuel := 60) (n := 4) (l := [false, true, false]) (by decide +kernel)
  refine ⟨_, _, _, A, ?_, ⟨by simp, by simp [exNoBatch, exE]⟩, rfl, h1, h2⟩
  intro d hd
  simp only [List.mem_cons, List.not_mem_nil, or_false] at hd
  subst hd
  exact ⟨exDisk_ok _ _ _ (by decide), by unfold Disk.Enough; decide⟩

/-- The contents of the samples do differ. -/
example : played (trainDsL exR { exNoBatch with encode := some (.gen exGen true) } [exDisk "a" 10 4] ⟨none, false, none, 0, none, false⟩ exW 0) true 60 [false, false, false] =
      [.item 10, .item 10, .item 11] ∧
    played (trainDsL exR { exNoBatch with encode := some (.gen exGen true) } [exDisk "a" 10 4] ⟨none, false, none, 0, none, false⟩ exW 0) true 60 [false, true, false, false] =
      [.item 10, .leave, .item 11, .item 11] := by decide +kernel

/-- **C80 is violated** with a generator function for `pack_selected_samples`: what is left of the pack when the loop is left is lost. -/
theorem C80_violated_packer :
    ∃ (ds : List (Disk Nat Nat)) (E : Encoder Nat Nat) (o : TrainOpts) (A : LDs Nat), (∀ d ∈ ds, d.Ok ∧ d.Enough exW) ∧ E.Fits o.batchSize o.packing ∧ o.epochLength = 0 ∧
      trainDsL exR E ds o exW 0 = .ok A ∧ ¬ (loaderL true A 0).D.LeavesUpToEnd (loaderL true A 0).leave := by
  obtain ⟨A, h1, h2⟩ := leaveBroken_spec (X := trainDsL exR { exNoBatch with pack := some (fun _ l => some [l], true, exSplit) } [exDisk "a" 10 4] ⟨none, false, some 2, 0, none, false⟩ exW 0)
    (savable := true) (fuel := 60) (n := 4) (l := [false, true, false]) (by decide +kernel)
  refine ⟨_, _, _, A, ?_, ⟨by simp [exNoBatch], by simp [exNoBatch, exE]⟩, rfl, h1, h2⟩
  intro d hd
  simp only [List.mem_cons, List.not_mem_nil, or_false] at hd
  subst hd
  exact ⟨exDisk_ok _ _ _ (by decide), by unfold Disk.Enough; decide⟩

/-- The second sample of the pack (22) is never delivered. -/
example : played (trainDsL exR { exNoBatch with pack := some (fun _ l => some [l], true, exSplit) } [exDisk "a" 10 4] ⟨none, false, some 2, 0, none, false⟩ exW 0) true 60 [false, true, false, false] =
    [.item 20, .leave, .item 24, .item 26] := by decide +kernel

/-- **C80 is violated** for validation with several datasets: if the loop is left within a later dataset, the next loop begins the first dataset again, and then continues in the middle of the later one, so that the first
samples of the later one are missing from this pass and those of the first one come twice. -/
theorem C80_violated_concat :
    ∃ (ds : List (Disk Nat Nat)) (o : ValOpts) (A : LDs Nat), (∀ d ∈ ds, d.Ok) ∧ exE.NoGenerators none ∧ exE.group = none ∧ o.packing = none ∧ o.limit = none ∧
      valDsL exR exE ds o exW 0 = .ok A ∧ ¬ (loaderL true A 0).D.LeavesUpToEnd (loaderL true A 0).leave := by
  obtain ⟨A, h1, h2⟩ := leaveBroken_spec (X := valDsL exR exE [exDisk "a" 10 3, exDisk "b" 100 4] ⟨2, false, none, none, false⟩ exW 0)
    (savable := true) (fuel := 60) (n := 5) (l := [false, false, true, false]) (by decide +kernel)
  refine ⟨_, _, A, ?_, ⟨by simp [exE], by simp [exE, UserMap.Plain], by simp [exE], by simp⟩, rfl, rfl, rfl, h1, h2⟩
  intro d hd
  simp only [List.mem_cons, List.not_mem_nil, or_false] at hd
  rcases hd with rfl | rfl <;> exact exDisk_ok _ _ _ (by decide)

/-- **C80 is violated** for validation with a limit that is larger than the number of batches: if the loop is left at the last batch, the next loop goes on counting in a new pass, and the pass after it begins
before that one is finished. -/
theorem C80_violated_limit :
    ∃ (d : Disk Nat Nat) (o : ValOpts) (A : LDs Nat), d.Ok ∧ exE.NoGenerators none ∧ exE.group = none ∧ o.packing = none ∧
      valDsL exR exE [d] o exW 0 = .ok A ∧ ¬ (loaderL true A 0).D.LeavesUpToEnd (loaderL true A 0).leave := by
  obtain ⟨A, h1, h2⟩ := leaveBroken_spec (X := valDsL exR exE [exDisk "a" 10 5] ⟨2, false, none, some 4, false⟩ exW 0)
    (savable := true) (fuel := 60) (n := 8) (l := [false, false, false, true, false, false, false]) (by decide +kernel)
  exact ⟨_, _, A, exDisk_ok _ _ _ (by decide), ⟨by simp [exE], by simp [exE, UserMap.Plain], by simp [exE], by simp⟩, rfl, rfl, h1, h2⟩

/-- The loop after the one left has one batch (42), the one after it begins the data anew. -/
example : played (valDsL exR exE [exDisk "a" 10 5] ⟨2, false, none, some 4, false⟩ exW 0) true 60 [false, false, false, true, false, false, false, false] =
    [.item 42, .item 50, .item 28, .leave, .item 42, .fin, .item 42, .item 50] := by decide +kernel

/-! ### The hypotheses of the theorems are satisfiable, and the runs are not trivial -/

example : ∃ A, trainDsL exR exE [exDisk "a" 10 4, exDisk "b" 100 6] exO exW 0 = .ok A ∧ (loaderL true A 0).D.LeavesExactly (loaderL true A 0).leave := by
  refine C80_train_partial exR exE _ exO _ _ _ _ (by simp) ?_ (by decide) (by decide) rfl ⟨by simp [exE], by simp [exE, UserMap.Plain], by simp [exE], by simp [exO]⟩ ⟨by simp [exO], by simp [exO]⟩
  intro d hd
  simp only [List.mem_cons, List.not_mem_nil, or_false] at hd
  rcases hd with rfl | rfl
  · exact ⟨exDisk_ok _ _ _ (by decide), by unfold Disk.Enough; decide⟩
  · exact ⟨exDisk_ok _ _ _ (by decide), by unfold Disk.Enough; decide⟩

/-- Loops over two blended datasets with a shuffle buffer are left after 1, 1, 0 and 3 batches. -/
example : played (trainDsL exR exE [exDisk "a" 10 4, exDisk "b" 100 6] exO exW 0) true 100 [false, true, false, true, true, false, false, false, true, false] =
      [.item 42, .leave, .item 224, .leave, .leave, .item 410, .item 222, .item 48, .leave, .item 410] ∧
    played (trainDsL exR exE [exDisk "a" 10 4, exDisk "b" 100 6] exO exW 0) true 100 [false, false, false, false, false, false] =
      [.item 42, .item 224, .item 410, .item 222, .item 48, .item 410] := by decide +kernel

/-- Virtual epochs of 3 batches, left after 2 and 3 (the second time at the end of the epoch, which is then not reported). -/
example : played (trainDsL exR exE [exDisk "a" 10 4, exDisk "b" 100 6] { exO with epochLength := 3 } exW 0) false 100
      [false, false, true, false, false, false, false, false, true, false, false, false, false] =
    [.item 42, .item 224, .leave, .item 410, .fin, .item 222, .item 48, .item 410, .leave, .item 234, .item 44, .item 410, .fin] := by decide +kernel

/-- Validation, left after 1, 1, 1 batches. -/
example : played (valDsL exR exE [exDisk "a" 10 5] ⟨2, false, none, none, false⟩ exW 0) true 60 [false, true, false, true, false, true, false, false, false, false] =
    [.item 42, .leave, .item 50, .leave, .item 28, .leave, .item 42, .item 50, .item 28, .fin] := by decide +kernel

end Verif.Pipeline
