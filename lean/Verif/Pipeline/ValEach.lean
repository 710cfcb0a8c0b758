import Verif.Pipeline.ValProps
import Verif.Pipeline.Content

/-! # `get_val_datasets`: one validation dataset per source dataset

`task_encoder/loader.py:151-204`: instead of one dataset that goes through all the sources one after the other, a list with one dataset for each of them. -/

namespace Verif.Pipeline

open Verif.Stream Verif.Wds

variable {B C K ρ : Type}

/-- task_encoder/loader.py:186-204 `get_val_datasets`, for worker `i` of `w`: the list of (built dataset, source dataset). Building one of them raises: the whole call raises. The
weights given in the configuration are ignored. Simplified: `loader.get_datasets` (C57, C70) is the given list of datasets. -/
def valDatasets [DecidableEq K] (R : Rngs ρ) (E : Encoder C K) (o : ValOpts) (w : Sharder.WorkerConfig) (i : Nat) :
    List (Disk B C) → Except BErr (List (AnyDs C × Disk B C))
  | [] => .ok []
  | d :: ds =>
    match valDs R E [d] o w i with
    | .error e => .error e
    | .ok A =>
      match valDatasets R E o w i ds with
      | .error e => .error e
      | .ok l => .ok ((A, d) :: l)

theorem valDatasets_ok [DecidableEq K] {R : Rngs ρ} {E : Encoder C K} {o : ValOpts} {w : Sharder.WorkerConfig} {i : Nat} {ds : List (Disk B C)} {A : Nat → AnyDs C}
    (h : ∀ j (hj : j < ds.length), valDs R E [ds[j]] o w i = .ok (A j)) :
    valDatasets R E o w i ds = .ok (ds.mapIdx fun j d => (A j, d)) := by
  induction ds generalizing A with
  | nil => rfl
  | cons d ds ih =>
    have h0 := h 0 (by simp)
    simp only [List.getElem_cons_zero] at h0
    have h1 : valDatasets R E o w i ds = .ok (ds.mapIdx fun j d => (A (j + 1), d)) := ih fun j hj => by
      have := h (j + 1) (by simpa using hj)
      simpa using this
    rw [valDatasets, h0]
    simp only [h1, List.mapIdx_cons]

theorem zipped [DecidableEq K] {E : Encoder C K} {ds : List (Disk B C)} {o : ValOpts} {world workers : Nat} {R : Nat → Nat → Rngs ρ}
    {P : Disk B C → (Nat → Nat → Nat → List (Smp C)) → Prop}
    (h : ∀ d ∈ ds, ∃ (A : Nat → Nat → AnyDs C) (out : Nat → Nat → Nat → List (Smp C)),
      (∀ r < world, ∀ i < max 1 workers, valDs (R r i) E [d] o ⟨r, world, workers⟩ i = .ok (A r i) ∧ Passes (A r i).D (out r i)) ∧ P d out) :
    ∃ (A : Nat → Nat → Nat → AnyDs C) (out : Nat → Nat → Nat → Nat → List (Smp C)),
      (∀ r < world, ∀ i < max 1 workers,
        valDatasets (R r i) E o ⟨r, world, workers⟩ i ds = .ok (ds.mapIdx fun j d => (A j r i, d)) ∧ ∀ j < ds.length, Passes (A j r i).D (out j r i)) ∧
      ∀ j (hj : j < ds.length), P ds[j] (out j) := by
  have h1 : ∀ j, ∃ (A : Nat → Nat → AnyDs C) (out : Nat → Nat → Nat → List (Smp C)), ∀ hj : j < ds.length,
      (∀ r < world, ∀ i < max 1 workers, valDs (R r i) E [ds[j]] o ⟨r, world, workers⟩ i = .ok (A r i) ∧ Passes (A r i).D (out r i)) ∧ P ds[j] out := by
    intro j
    by_cases hj : j < ds.length
    · obtain ⟨A, out, h⟩ := h ds[j] (List.getElem_mem hj)
      exact ⟨A, out, fun _ => h⟩
    · exact ⟨fun _ _ => ⟨Unit, Unit, ⟨(), fun _ => .stop (), fun _ => (), fun _ => (), fun _ => (), fun _ => none, false⟩⟩, fun _ _ _ => [], fun h => absurd h hj⟩
  choose A out h1 using h1
  exact ⟨A, out, fun r hr i hi => ⟨valDatasets_ok (A := fun j => A j r i) fun j hj => ((h1 j hj).1 r hr i hi).1, fun j hj => ((h1 j hj).1 r hr i hi).2⟩, fun j hj => (h1 j hj).2⟩

/-- **C118, each dataset exactly once and on its own.** `get_val_datasets` gives one dataset per source dataset, in the order of the sources, with the source beside it, also for no source at all. If
there is no limit, nothing is dropped or skipped, then in every pass over the `j`-th of them, over all workers of all ranks, the batches are made of exactly the samples of the `j`-th
source, each once (in order without packing and grouping). Missing for the full statement: generator functions and `max_samples_per_sequence`, as for C67. -/
theorem C118_each_exactly_once_partial [DecidableEq K] (R : Nat → Nat → Rngs ρ) (E : Encoder C K) (ds : List (Disk B C)) (o : ValOpts) (world workers : Nat)
    (hworld : 0 < world) (hds : ∀ d ∈ ds, d.Val ∧ d.maxSamples = none ∧ Total d.load) (hE : E.Safe o.packing) (hT : E.Total) (hb : 0 < o.batchSize)
    (hdl : o.dropLast = false) (hl : o.limit = none) :
    ∃ (A : Nat → Nat → Nat → AnyDs C) (out : Nat → Nat → Nat → Nat → List (Smp C)),
      (∀ r < world, ∀ i < max 1 workers,
        valDatasets (R r i) E o ⟨r, world, workers⟩ i ds = .ok (ds.mapIdx fun j d => (A j r i, d)) ∧ ∀ j < ds.length, Passes (A j r i).D (out j r i)) ∧
      ∀ j (hj : j < ds.length) k, (ofAll world workers fun r i => leavesOf (out j r i k)).Perm ds[j].samples ∧
        (o.packing = none → E.group = none → (ofAll world workers fun r i => leavesOf (out j r i k)) = ds[j].samples) := by
  refine zipped (P := fun d out => ∀ k, (ofAll world workers fun r i => leavesOf (out r i k)).Perm d.samples ∧
        (o.packing = none → E.group = none → (ofAll world workers fun r i => leavesOf (out r i k)) = d.samples)) fun d hd => ?_
  obtain ⟨A, out, h1, h2⟩ := C67_val_exactly_once_partial R E [d] o world workers hworld (by simp) (by simpa using hds d hd) hE hT hb hdl hl
  refine ⟨A, out, h1, fun k => ?_⟩
  obtain ⟨h3, h4⟩ := h2 k
  simp only [List.flatMap_cons, List.flatMap_nil, List.append_nil, List.length_cons, List.length_nil] at h3 h4
  exact ⟨h3, h4 trivial⟩

/-- **C118, nothing twice and nothing foreign.** With a limit, dropped last batches, skipped samples, failing functions and `max_samples_per_sequence`: in every pass over the `j`-th dataset, over all workers,
only samples of the `j`-th source are used, none twice. Missing: generator functions. -/
theorem C118_each_at_most_once_partial [DecidableEq K] (R : Nat → Nat → Rngs ρ) (E : Encoder C K) (ds : List (Disk B C)) (o : ValOpts) (world workers : Nat)
    (hworld : 0 < world) (hds : ∀ d ∈ ds, d.Val) (hE : E.Safe o.packing) (hb : 0 < o.batchSize) :
    ∃ (A : Nat → Nat → Nat → AnyDs C) (out : Nat → Nat → Nat → Nat → List (Smp C)),
      (∀ r < world, ∀ i < max 1 workers,
        valDatasets (R r i) E o ⟨r, world, workers⟩ i ds = .ok (ds.mapIdx fun j d => (A j r i, d)) ∧ ∀ j < ds.length, Passes (A j r i).D (out j r i)) ∧
      ∀ j (hj : j < ds.length) k, (ofAll world workers fun r i => leavesOf (out j r i k)).Subperm ds[j].samples := by
  refine zipped (P := fun d out => ∀ k, (ofAll world workers fun r i => leavesOf (out r i k)).Subperm d.samples) fun d hd => ?_
  obtain ⟨A, out, h1, h2⟩ := C67_val_at_most_once_partial R E [d] o world workers hworld (by simp) (by simpa using hds d hd) hE hb
  refine ⟨A, out, h1, fun k => ?_⟩
  simpa using h2 k

/-- **C118, the same samples as with `get_val_dataset`.** Under the conditions of `C118_each_exactly_once_partial`: all passes over all datasets of `get_val_datasets` together use the same samples as one pass over the
dataset of `get_val_dataset` over the same (one or more) sources, each the same number of times. -/
theorem C118_same_samples_partial [DecidableEq K] (R : Nat → Nat → Rngs ρ) (E : Encoder C K) (ds : List (Disk B C)) (o : ValOpts) (world workers : Nat)
    (hworld : 0 < world) (hne : ds ≠ []) (hds : ∀ d ∈ ds, d.Val ∧ d.maxSamples = none ∧ Total d.load) (hE : E.Safe o.packing) (hT : E.Total) (hb : 0 < o.batchSize)
    (hdl : o.dropLast = false) (hl : o.limit = none) :
    ∃ (A : Nat → Nat → Nat → AnyDs C) (out : Nat → Nat → Nat → Nat → List (Smp C)) (A' : Nat → Nat → AnyDs C) (out' : Nat → Nat → Nat → List (Smp C)),
      (∀ r < world, ∀ i < max 1 workers,
        valDatasets (R r i) E o ⟨r, world, workers⟩ i ds = .ok (ds.mapIdx fun j d => (A j r i, d)) ∧ ∀ j < ds.length, Passes (A j r i).D (out j r i)) ∧
      (∀ r < world, ∀ i < max 1 workers, valDs (R r i) E ds o ⟨r, world, workers⟩ i = .ok (A' r i) ∧ Passes (A' r i).D (out' r i)) ∧
      ∀ (k : Nat → Nat) k', ((List.range ds.length).flatMap fun j => ofAll world workers fun r i => leavesOf (out j r i (k j))).Perm
        (ofAll world workers fun r i => leavesOf (out' r i k')) := by
  obtain ⟨A, out, h1, h2⟩ := C118_each_exactly_once_partial R E ds o world workers hworld hds hE hT hb hdl hl
  obtain ⟨A', out', h3, h4⟩ := C67_val_exactly_once_partial R E ds o world workers hworld hne hds hE hT hb hdl hl
  refine ⟨A, out, A', out', h1, h3, fun k k' => List.Perm.trans ?_ (h4 k').1.symm⟩
  have e : ds.flatMap Disk.samples = (List.range ds.length).flatMap fun j => ((ds[j]?).map Disk.samples).getD [] := by
    clear h1 h2 h3 h4 hds hne
    induction ds with
    | nil => rfl
    | cons d ds ih =>
      rw [List.length_cons, List.range_succ_eq_map, List.flatMap_cons, List.flatMap_cons, List.flatMap_map, ih]
      simp
  rw [e]
  refine List.Perm.flatMap_left _ fun j hj => ?_
  have hj := List.mem_range.1 hj
  rw [List.getElem?_eq_getElem hj]
  exact (h2 j hj (k j)).1

/-- **C118, contents: batch size, last batch and limit count for each dataset.** In every pass the `j`-th dataset delivers on each worker what the user functions make of the samples of the `j`-th source alone; the
last batch is dropped and the limit applied for each dataset by itself. Missing: see C68. -/
theorem C118_each_contents_partial [DecidableEq K] (R : Rngs ρ) (E : Encoder C K) (ds : List (Disk B C)) (o : ValOpts) (w : Sharder.WorkerConfig) (i : Nat)
    (hds : ∀ d ∈ ds, d.Val) (hr : w.rank < w.worldSize) (hi : i < w.workers) (hb : 0 < o.batchSize)
    (load : Disk B C → Raw B → Option C) (hload : ∀ d ∈ ds, Computes d.load (load d)) (F : Fns C K) (hE : E.Is F (some o.batchSize) o.packing) :
    ∃ A : Nat → AnyDs C, valDatasets R E o w i ds = .ok (ds.mapIdx fun j d => (A j, d)) ∧ ∀ j (hj : j < ds.length), ∃ out, Passes (A j).D out ∧ ∃ packs batches,
      Packed F o.packing (((((ds[j].raws w i).filterMap (load ds[j])).flatMap F.cook).flatMap F.encode)) packs ∧
      Batched F E.group.isSome o.batchSize o.dropLast packs batches ∧
      ∀ k, (out k).map (·.content) =
        o.cut w.numWorkers i (if E.group.isSome then batches.filterMap F.batch else (batches.filterMap F.batch).flatMap F.encodeBatch) := by
  have h1 : ∀ j, ∃ A : AnyDs C, ∀ hj : j < ds.length, valDs R E [ds[j]] o w i = .ok A ∧ ∃ out, Passes A.D out ∧ ∃ packs batches,
      Packed F o.packing (((((ds[j].raws w i).filterMap (load ds[j])).flatMap F.cook).flatMap F.encode)) packs ∧
      Batched F E.group.isSome o.batchSize o.dropLast packs batches ∧
      ∀ k, (out k).map (·.content) =
        o.cut w.numWorkers i (if E.group.isSome then batches.filterMap F.batch else (batches.filterMap F.batch).flatMap F.encodeBatch) := by
    intro j
    by_cases hj : j < ds.length
    · have hm := List.getElem_mem hj
      obtain ⟨A, h⟩ := C68_val_contents_partial R E [ds[j]] o w i (by simp) (by simpa using hds _ hm) hr hi hb load (by simpa using hload _ hm) F hE
      simp only [List.flatMap_cons, List.flatMap_nil, List.append_nil] at h
      exact ⟨A, fun _ => h⟩
    · exact ⟨⟨Unit, Unit, ⟨(), fun _ => .stop (), fun _ => (), fun _ => (), fun _ => (), fun _ => none, false⟩⟩, fun h => absurd h hj⟩
  choose A h1 using h1
  exact ⟨A, valDatasets_ok fun j hj => (h1 j hj).1, fun j hj => (h1 j hj).2⟩

/-- The hypotheses are satisfiable: two datasets with 4 and 7 samples, 2 ranks with 2 workers. -/
example := C118_each_exactly_once_partial (fun _ _ => exR) exE [exDisk "a" 10 4, exDisk "b" 100 7] ⟨2, false, none, none, true⟩ 2 2 (by decide)
  (by
    intro d hd
    simp only [List.mem_cons, List.not_mem_nil, or_false] at hd
    rcases hd with rfl | rfl
    · exact ⟨exDisk_val _ _ _ (by decide) (by decide +kernel), rfl, fun _ _ => ⟨_, rfl⟩⟩
    · exact ⟨exDisk_val _ _ _ (by decide) (by decide +kernel), rfl, fun _ _ => ⟨_, rfl⟩⟩) exE_safe exE_total (by decide) rfl rfl

example := C118_same_samples_partial (fun _ _ => exR) exPack [exDisk "a" 10 4, exDisk "b" 100 7] ⟨2, false, some 4, none, true⟩ 2 2 (by decide) (by simp)
  (by
    intro d hd
    simp only [List.mem_cons, List.not_mem_nil, or_false] at hd
    rcases hd with rfl | rfl
    · exact ⟨exDisk_val _ _ _ (by decide) (by decide +kernel), rfl, fun _ _ => ⟨_, rfl⟩⟩
    · exact ⟨exDisk_val _ _ _ (by decide) (by decide +kernel), rfl, fun _ _ => ⟨_, rfl⟩⟩) exPack_safe exPack_total (by decide) rfl rfl

example := C118_each_at_most_once_partial (fun _ _ => exR) exPack [exDisk "a" 10 4, exDisk "b" 100 7] ⟨2, true, some 4, some 3, true⟩ 2 2 (by decide)
  (by
    intro d hd
    simp only [List.mem_cons, List.not_mem_nil, or_false] at hd
    rcases hd with rfl | rfl
    · exact exDisk_val _ _ _ (by decide) (by decide +kernel)
    · exact exDisk_val _ _ _ (by decide) (by decide +kernel)) exPack_safe (by decide)

example := C118_each_contents_partial exR exE [exDisk "a" 10 4, exDisk "b" 100 7] ⟨2, true, none, some 3, true⟩ ⟨1, 2, 2⟩ 0
  (fun d hd => (exVals d hd).1) (by decide) (by decide) (by decide) _ (fun d hd => (exVals d hd).2)
  ⟨fun c => [c], fun c => [2 * c], fun l => [l], fun l => l, fun _ => none, fun _ => 2, fun l => some l.sum, fun c => [c]⟩
  ⟨fun _ => rfl, fun _ _ => rfl, (by intro _ h; cases h), (by intro _ h; cases h), fun _ _ => rfl, fun _ => rfl⟩

/-- What the `j`-th dataset of a list delivers. -/
def deliveredOf (l : Except BErr (List (AnyDs Nat × Disk Nat Nat))) (j fuel : Nat) : List (Option Nat) :=
  match l with
  | .error _ => []
  | .ok l => match l[j]? with
    | none => []
    | some p => delivered (.ok p.1) fuel

/-- With a limit of one batch in all: both datasets deliver a batch. With `get_val_dataset` only the first would. -/
example :
    (deliveredOf (valDatasets exR exE ⟨2, false, none, some 1, true⟩ ⟨0, 1, 1⟩ 0 [exDisk "a" 10 4, exDisk "b" 100 7]) 0 40).take 2 = [some 42, none] ∧
    (deliveredOf (valDatasets exR exE ⟨2, false, none, some 1, true⟩ ⟨0, 1, 1⟩ 0 [exDisk "a" 10 4, exDisk "b" 100 7]) 1 40).take 2 = [some 402, none] := by decide +kernel

/-- No source: `get_val_datasets` gives an empty list, `get_val_dataset` raises. -/
example : (match valDatasets exR exE ⟨2, false, none, none, true⟩ ⟨0, 1, 1⟩ 0 ([] : List (Disk Nat Nat)) with | .ok l => l.length = 0 | .error _ => False) ∧
    (match valDs exR exE ([] : List (Disk Nat Nat)) ⟨2, false, none, none, true⟩ ⟨0, 1, 1⟩ 0 with | .ok _ => False | .error _ => True) := by
  refine ⟨rfl, trivial⟩

end Verif.Pipeline
