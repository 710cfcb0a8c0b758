import Verif.Pipeline.Val
import Verif.Pipeline.Example
import Mathlib.Data.List.Perm.Subperm

/-! # Validation: every sample once per pass, over all ranks and workers -/

namespace Verif.Pipeline

open Verif.Stream Verif.Wds

variable {B C K ρ σ κ : Type}

/-- The passes are determined. -/
theorem Passes.unique {D : Dataset σ (Smp C) κ} {out out' : Nat → List (Smp C)} (h : Passes D out) (h' : Passes D out') : out = out' := by
  obtain ⟨st, h1, h2⟩ := h
  obtain ⟨st', h1', h2'⟩ := h'
  have key : ∀ k, st k = st' k := by
    intro k
    induction k with
    | zero => rw [h1, h1']
    | succ k ih =>
      have a := h2 k
      rw [ih] at a
      exact (Dataset.Pass.det a (h2' k)).2
  funext k
  have a := h2 k
  rw [key k] at a
  exact (Dataset.Pass.det a (h2' k)).1

/-- What all workers of all ranks have: rank 0 worker 0, rank 0 worker 1, ... -/
def ofAll {α : Type} (world workers : Nat) (f : Nat → Nat → List α) : List α :=
  (List.range world).flatMap fun r => (List.range (max 1 workers)).flatMap fun i => f r i

theorem ofAll_congr {α : Type} {world workers : Nat} {f g : Nat → Nat → List α} (h : ∀ r < world, ∀ i < max 1 workers, f r i = g r i) :
    ofAll world workers f = ofAll world workers g := by
  unfold ofAll
  refine List.flatMap_congr fun r hr => List.flatMap_congr fun i hi => ?_
  exact h r (List.mem_range.1 hr) i (List.mem_range.1 hi)

theorem sublist_flatMap {α β : Type} {f g : α → List β} {l : List α} (h : ∀ a ∈ l, (f a).Sublist (g a)) : (l.flatMap f).Sublist (l.flatMap g) := by
  induction l with
  | nil => exact List.Sublist.refl _
  | cons a l ih =>
    rw [List.flatMap_cons, List.flatMap_cons]
    exact (h a (by simp)).append (ih fun b hb => h b (by simp [hb]))

theorem subperm_flatMap {α β : Type} {f g : α → List β} {l : List α} (h : ∀ a ∈ l, (f a).Subperm (g a)) : (l.flatMap f).Subperm (l.flatMap g) := by
  induction l with
  | nil => exact List.Subperm.refl _
  | cons a l ih =>
    rw [List.flatMap_cons, List.flatMap_cons]
    exact (h a (by simp)).append (ih fun b hb => h b (by simp [hb]))

theorem ofAll_sublist {α : Type} {world workers : Nat} {f g : Nat → Nat → List α} (h : ∀ r < world, ∀ i < max 1 workers, (f r i).Sublist (g r i)) :
    (ofAll world workers f).Sublist (ofAll world workers g) :=
  sublist_flatMap fun r hr => sublist_flatMap fun i hi => h r (List.mem_range.1 hr) i (List.mem_range.1 hi)

theorem ofAll_perm {α γ : Type} (world workers : Nat) (l : List γ) (f : γ → Nat → Nat → List α) :
    (ofAll world workers fun r i => l.flatMap fun d => f d r i).Perm (l.flatMap fun d => ofAll world workers (f d)) := by
  induction l with
  | nil => simp [ofAll]
  | cons d l ih =>
    have e : (ofAll world workers fun r i => (d :: l).flatMap fun d => f d r i) = ofAll world workers fun r i => f d r i ++ l.flatMap fun d => f d r i := by
      unfold ofAll
      simp only [List.flatMap_cons]
    rw [e, List.flatMap_cons]
    refine List.Perm.trans ?_ (List.Perm.append_left _ ih)
    refine List.Perm.symm (List.Perm.trans (List.flatMap_append_perm _ _ _) ?_)
    exact List.Perm.flatMap_left _ fun r _ => List.flatMap_append_perm _ _ _

theorem reads_all (d : Disk B C) (world workers : Nat) :
    (ofAll world workers fun r i => d.reads ⟨r, world, workers⟩ i) = (Sharder.readByAll d.shards world workers d.maxSamples 0).flatten := by
  unfold ofAll Disk.reads Sharder.readByAll
  have key : ∀ {α β : Type} (l : List α) (f : α → List (List β)), (l.flatMap f).flatten = l.flatMap fun a => (f a).flatten := by
    intro α β l f
    induction l with
    | nil => rfl
    | cons a l ih => simp [List.flatMap_cons, ih]
  rw [key]
  congr 1
  funext r
  rw [key]

/-- **C67, each sample exactly once.** Validation over all ranks and workers, with or without packing and grouping: if there is no limit, nothing is dropped or
skipped, then in every pass, over all workers, the batches are made of exactly the samples of the datasets, each once; and for a single dataset, without packing and grouping,
in order (rank 0 worker 0 first). Missing for the full statement: generator functions; `max_samples_per_sequence` (for which it is false:
`C67_violated_max_samples`). -/
theorem C67_val_exactly_once_partial [DecidableEq K] (R : Nat → Nat → Rngs ρ) (E : Encoder C K) (ds : List (Disk B C)) (o : ValOpts) (world workers : Nat)
    (hworld : 0 < world) (hne : ds ≠ []) (hds : ∀ d ∈ ds, d.Val ∧ d.maxSamples = none ∧ Total d.load) (hE : E.Safe o.packing) (hT : E.Total) (hb : 0 < o.batchSize)
    (hdl : o.dropLast = false) (hl : o.limit = none) :
    ∃ (A : Nat → Nat → AnyDs C) (out : Nat → Nat → Nat → List (Smp C)),
      (∀ r < world, ∀ i < max 1 workers, valDs (R r i) E ds o ⟨r, world, workers⟩ i = .ok (A r i) ∧ Passes (A r i).D (out r i)) ∧
      ∀ k, (ofAll world workers fun r i => leavesOf (out r i k)).Perm (ds.flatMap Disk.samples) ∧
        (ds.length = 1 → o.packing = none → E.group = none → (ofAll world workers fun r i => leavesOf (out r i k)) = ds.flatMap Disk.samples) := by
  have h1 : ∀ r i, ∃ (A : AnyDs C) (out : Nat → List (Smp C)), r < world → i < max 1 workers → valDs (R r i) E ds o ⟨r, world, workers⟩ i = .ok A ∧ Passes A.D out ∧
      ∀ k, (leavesOf (out k)).Perm (ds.flatMap fun d => d.reads ⟨r, world, workers⟩ i) ∧
        (o.packing = none → E.group = none → leavesOf (out k) = ds.flatMap fun d => d.reads ⟨r, world, workers⟩ i) := by
    intro r i
    by_cases hr : r < world
    · by_cases hi : i < max 1 workers
      · obtain ⟨A, h1, ⟨S, h2⟩, h5⟩ := valDs_covers (R r i) E ds o ⟨r, world, workers⟩ i hne (fun d hd => (hds d hd).1) hr hi hE hb (exact := True)
          (fun _ => ⟨fun d hd => (hds d hd).2.2, hT, hdl, .inl hl⟩)
        obtain ⟨out, h3, h4⟩ := h2.passes
        refine ⟨A, out, fun _ _ => ⟨h1, h3, fun k => ⟨(h4 k).2 trivial, fun hp hg => ?_⟩⟩⟩
        obtain ⟨S', h6⟩ := h5 hp hg
        obtain ⟨out', h7, h8⟩ := h6.passes
        rw [h3.unique h7]
        exact (h8 k).2 trivial
      · exact ⟨⟨Unit, Unit, ⟨(), fun _ => .stop (), fun _ => (), fun _ => (), fun _ => (), fun _ => none, false⟩⟩, fun _ => [], fun _ h => absurd h hi⟩
    · exact ⟨⟨Unit, Unit, ⟨(), fun _ => .stop (), fun _ => (), fun _ => (), fun _ => (), fun _ => none, false⟩⟩, fun _ => [], fun h => absurd h hr⟩
  choose A out h1 using h1
  refine ⟨A, out, fun r hr i hi => ⟨(h1 r i hr hi).1, (h1 r i hr hi).2.1⟩, fun k => ?_⟩
  have e : (ofAll world workers fun r i => leavesOf (out r i k)).Perm (ofAll world workers fun r i => ds.flatMap fun d => d.reads ⟨r, world, workers⟩ i) :=
    List.Perm.flatMap_left _ fun r hr => List.Perm.flatMap_left _ fun i hi => ((h1 r i (List.mem_range.1 hr) (List.mem_range.1 hi)).2.2 k).1
  have hall : ∀ d ∈ ds, (ofAll world workers fun r i => d.reads ⟨r, world, workers⟩ i) = d.samples := by
    intro d hd
    have hk := (hds d hd).1.ok
    rw [reads_all, (hds d hd).2.1, (Sharder.C01_workers_partition_dataset d.shards hk.whole hk.nonempty (lt_of_le_of_lt hk.size (by norm_num)) world workers hworld 0).2]
    rfl
  constructor
  · refine e.trans ((ofAll_perm world workers ds fun d r i => d.reads ⟨r, world, workers⟩ i).trans ?_)
    rw [List.flatMap_congr hall]
  · intro hd1 hp hg
    have e : (ofAll world workers fun r i => leavesOf (out r i k)) = ofAll world workers fun r i => ds.flatMap fun d => d.reads ⟨r, world, workers⟩ i :=
      ofAll_congr fun r hr i hi => ((h1 r i hr hi).2.2 k).2 hp hg
    rw [e]
    obtain ⟨d, rfl⟩ := List.length_eq_one_iff.1 hd1
    simp only [List.flatMap_cons, List.flatMap_nil, List.append_nil]
    exact hall d (by simp)

/-- **C67, at most once.** With a limit, dropped last batches, skipped samples, failing functions and `max_samples_per_sequence`, packing, grouping: in every pass, over all
workers, no sample is used twice. Missing: generator functions. -/
theorem C67_val_at_most_once_partial [DecidableEq K] (R : Nat → Nat → Rngs ρ) (E : Encoder C K) (ds : List (Disk B C)) (o : ValOpts) (world workers : Nat)
    (hworld : 0 < world) (hne : ds ≠ []) (hds : ∀ d ∈ ds, d.Val) (hE : E.Safe o.packing) (hb : 0 < o.batchSize) :
    ∃ (A : Nat → Nat → AnyDs C) (out : Nat → Nat → Nat → List (Smp C)),
      (∀ r < world, ∀ i < max 1 workers, valDs (R r i) E ds o ⟨r, world, workers⟩ i = .ok (A r i) ∧ Passes (A r i).D (out r i)) ∧
      ∀ k, (ofAll world workers fun r i => leavesOf (out r i k)).Subperm (ds.flatMap Disk.samples) := by
  have h1 : ∀ r i, ∃ (A : AnyDs C) (out : Nat → List (Smp C)), r < world → i < max 1 workers → valDs (R r i) E ds o ⟨r, world, workers⟩ i = .ok A ∧ Passes A.D out ∧
      ∀ k, (leavesOf (out k)).Subperm (ds.flatMap fun d => d.reads ⟨r, world, workers⟩ i) := by
    intro r i
    by_cases hr : r < world
    · by_cases hi : i < max 1 workers
      · obtain ⟨A, h1, ⟨S, h2⟩, _⟩ := valDs_covers (R r i) E ds o ⟨r, world, workers⟩ i hne hds hr hi hE hb (exact := False) False.elim
        obtain ⟨out, h3, h4⟩ := h2.passes
        exact ⟨A, out, fun _ _ => ⟨h1, h3, fun k => (h4 k).1⟩⟩
      · exact ⟨⟨Unit, Unit, ⟨(), fun _ => .stop (), fun _ => (), fun _ => (), fun _ => (), fun _ => none, false⟩⟩, fun _ => [], fun _ h => absurd h hi⟩
    · exact ⟨⟨Unit, Unit, ⟨(), fun _ => .stop (), fun _ => (), fun _ => (), fun _ => (), fun _ => none, false⟩⟩, fun _ => [], fun h => absurd h hr⟩
  choose A out h1 using h1
  refine ⟨A, out, fun r hr i hi => ⟨(h1 r i hr hi).1, (h1 r i hr hi).2.1⟩, fun k => ?_⟩
  have e : (ofAll world workers fun r i => leavesOf (out r i k)).Subperm (ofAll world workers fun r i => ds.flatMap fun d => d.reads ⟨r, world, workers⟩ i) :=
    subperm_flatMap fun r hr => subperm_flatMap fun i hi => (h1 r i (List.mem_range.1 hr) (List.mem_range.1 hi)).2.2 k
  refine e.trans (((ofAll_perm world workers ds fun d r i => d.reads ⟨r, world, workers⟩ i).subperm).trans ?_)
  refine List.Sublist.subperm (sublist_flatMap fun d hd => ?_)
  have hk := (hds d hd).ok
  rw [reads_all]
  have hs : (Sharder.readByAll d.shards world workers d.maxSamples 0).Sublist (Sharder.samplesOf d.shards) := by
    cases hm : d.maxSamples with
    | none =>
      rw [(Sharder.C01_workers_partition_dataset d.shards hk.whole hk.nonempty (lt_of_le_of_lt hk.size (by norm_num)) world workers hworld 0).2]
    | some m => exact Sharder.C04_no_duplicates_partial d.shards hk.whole hk.nonempty hk.size world workers hworld 0 m (hk.maxSamples m hm)
  exact hs.flatten

theorem exDisk_val (name : String) (first n : Nat) (h : n ≤ 2 ^ 48) (hc : (groups (entries (exTarN first n))).length = n) : (exDisk name first n).Val where
  ok := exDisk_ok name first n h
  counted := by
    intro s hs
    simp only [exDisk, List.mem_singleton] at hs
    subst hs
    simpa [exDisk] using hc
  parallel := rfl
  load := by
    intro n a h
    cases h

theorem exE_safe : exE.Safe none where
  cook := by simp [exE]
  encode := by
    intro f hf
    cases hf
    exact ⟨_, _, rfl, fun _ _ h => by cases h⟩
  encodeBatch := by simp [exE]
  pack := by simp
  group := by simp [exE]
  batch := fun _ _ => ⟨_, rfl⟩

theorem exE_total : exE.Total where
  cook := by simp [exE]
  encode := by
    intro f hf
    cases hf
    exact ⟨_, _, rfl, fun _ _ => ⟨_, rfl⟩⟩
  encodeBatch := by simp [exE]
  pack := by simp [exE]
  group := by simp [exE]

/-- The hypotheses are satisfiable: two datasets with 4 and 7 samples, 2 ranks with 2 workers. -/
example := C67_val_exactly_once_partial (fun _ _ => exR) exE [exDisk "a" 10 4, exDisk "b" 100 7] ⟨2, false, none, none, true⟩ 2 2 (by decide) (by simp)
  (by
    intro d hd
    simp only [List.mem_cons, List.not_mem_nil, or_false] at hd
    rcases hd with rfl | rfl
    · exact ⟨exDisk_val _ _ _ (by decide) (by decide +kernel), rfl, fun _ _ => ⟨_, rfl⟩⟩
    · exact ⟨exDisk_val _ _ _ (by decide) (by decide +kernel), rfl, fun _ _ => ⟨_, rfl⟩⟩) exE_safe exE_total (by decide) rfl rfl

/-- A task encoder that packs pairs (in reverse order) and groups the packs by parity. -/
def exPack : Encoder Nat Nat :=
  { cook := none, encode := some (.plain (fun _ a => .ok (2 * a.content + 1)) true), pack := some (pairPacks, false, plainFinal fun _ l => .ok (l.map (·.content)).sum),
    group := some fun _ a => .group (a.content % 3) none, batch := fun _ l => .ok (l.map (·.content)).sum, batchOverridden := true, encodeBatch := none }

theorem pairPacks_perm (l : List (Smp C)) : (pairPacks.go l).flatten.Perm l ∧ (l ≠ [] → pairPacks.go l ≠ []) := by
  match l with
  | [] => simp [pairPacks.go]
  | [a] => simp [pairPacks.go]
  | a :: b :: l =>
    refine ⟨?_, by simp [pairPacks.go]⟩
    simp only [pairPacks.go, List.flatten_cons, List.cons_append, List.nil_append]
    exact (List.Perm.swap a b _).trans (((pairPacks_perm l).1.cons b).cons a)

theorem exPack_safe : exPack.Safe (some 4) where
  cook := by simp [exPack]
  encode := by
    intro f hf
    cases hf
    exact ⟨_, _, rfl, fun _ _ h => by cases h⟩
  encodeBatch := by simp [exPack]
  pack := by
    intro n hn
    cases hn
    refine ⟨by decide, _, rfl, fun i l => ⟨_, rfl, (pairPacks_perm l).1.subperm, fun h => (pairPacks_perm l).2 fun e => by rw [e] at h; cases h⟩, rfl, (fun _ l => .ok (l.map (·.content)).sum), rfl, fun _ _ h => by cases h⟩
  group := by
    intro key hk
    cases hk
    intro _ _ h
    cases h
  batch := fun _ _ => ⟨_, rfl⟩

theorem exPack_total : exPack.Total where
  cook := by simp [exPack]
  encode := by
    intro f hf
    cases hf
    exact ⟨_, _, rfl, fun _ _ => ⟨_, rfl⟩⟩
  encodeBatch := by simp [exPack]
  pack := by
    intro q hq
    cases hq
    refine ⟨fun i l packs h => ?_, fun _ _ => ⟨_, rfl⟩⟩
    cases h
    exact (pairPacks_perm l).1
  group := by
    intro key hk
    cases hk
    exact fun _ _ => ⟨_, rfl⟩

/-- The hypotheses are satisfiable with packing and grouping. -/
example := C67_val_exactly_once_partial (fun _ _ => exR) exPack [exDisk "a" 10 4, exDisk "b" 100 7] ⟨2, false, some 4, none, true⟩ 2 2 (by decide) (by simp)
  (by
    intro d hd
    simp only [List.mem_cons, List.not_mem_nil, or_false] at hd
    rcases hd with rfl | rfl
    · exact ⟨exDisk_val _ _ _ (by decide) (by decide +kernel), rfl, fun _ _ => ⟨_, rfl⟩⟩
    · exact ⟨exDisk_val _ _ _ (by decide) (by decide +kernel), rfl, fun _ _ => ⟨_, rfl⟩⟩) exPack_safe exPack_total (by decide) rfl rfl

example := C67_val_at_most_once_partial (fun _ _ => exR) exPack [exDisk "a" 10 4, exDisk "b" 100 7] ⟨2, true, some 4, some 3, true⟩ 2 2 (by decide) (by simp)
  (by
    intro d hd
    simp only [List.mem_cons, List.not_mem_nil, or_false] at hd
    rcases hd with rfl | rfl
    · exact exDisk_val _ _ _ (by decide) (by decide +kernel)
    · exact exDisk_val _ _ _ (by decide) (by decide +kernel)) exPack_safe (by decide)

/-- What rank 1, worker 0 of two ranks with two workers delivers in the first three passes: the sums of two (doubled) samples each. -/
example : delivered (valDs exR exE [exDisk "a" 10 4, exDisk "b" 100 7] ⟨2, false, none, none, true⟩ ⟨1, 2, 2⟩ 0) 100 =
    [some 232, some 210, none, some 232, some 210, none, some 232, some 210, none] := by decide +kernel

/-- A dataset read in slices of at most 2 samples. -/
def exDiskMax : Disk Nat Nat := { exDisk "a.tar" 0 185 with maxSamples := some 2 }

/-- **C67 is violated** with `max_samples_per_sequence`: validating a shard with 185 samples and `max_samples_per_sequence = 2`, sample 184 is never used in any pass,
although nothing is dropped, skipped or limited. -/
theorem C67_violated_max_samples : ∃ A out, valDs exR exE [exDiskMax] ⟨2, false, none, none, true⟩ ⟨0, 1, 1⟩ 0 = .ok A ∧ Passes A.D out ∧
    ("a.tar", 184) ∈ exDiskMax.samples ∧ ∀ k, ("a.tar", 184) ∉ leavesOf (out k) := by
  have hv : exDiskMax.Val := by
    have h := exDisk_val "a.tar" 0 185 (by decide) (by decide +kernel)
    exact ⟨⟨h.ok.whole, h.ok.nonempty, h.ok.size, h.ok.names, h.ok.column, h.ok.tars, h.ok.parallel, fun n hn => by cases hn; decide, h.ok.mode⟩, h.counted, rfl, h.load⟩
  obtain ⟨A, h1, ⟨S, h2⟩, _⟩ := valDs_covers exR exE [exDiskMax] ⟨2, false, none, none, true⟩ ⟨0, 1, 1⟩ 0 (by simp) (by simpa using hv) (by decide) (by decide) exE_safe
    (by decide) (exact := False) False.elim
  obtain ⟨out, h3, h4⟩ := h2.passes
  refine ⟨A, out, h1, h3, by decide +kernel, fun k hk => ?_⟩
  have := (h4 k).1.subset hk
  revert this
  decide +kernel

end Verif.Pipeline
