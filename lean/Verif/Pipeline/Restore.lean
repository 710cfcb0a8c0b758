import Verif.Pipeline.Train

/-! # Samples of the assembled datasets are restored from their keys -/

namespace Verif.Pipeline

open Verif.Stream Verif.Wds

variable {B C K ρ : Type}

/-- All functions of the task encoder are stateless, there is no grouping, samples for packs are selected from the buffer, the batch size is positive and
`batch` does not fail. -/
structure Encoder.Keyed (E : Encoder C K) (batchSize packing : Option Nat) : Prop where
  cook : ∀ f, E.cook = some f → f.stateless
  encode : ∀ f, E.encode = some f → f.stateless
  encodeBatch : ∀ f, E.encodeBatch = some f → f.stateless
  pack : packing.isSome → E.packStateless = true ∧ ∀ p, E.pack = some p → PreSub p.1 ∧ (p.2.1 = false → ∃ f, p.2.2 = plainFinal f)
  group : E.group = none
  batch : ∀ n, batchSize = some n → E.batchStateless = true ∧ 0 < n ∧ ∀ i b, (E.batch i b).ok?.isSome

theorem epochStage_restores {length nw i : Nat} {A : AnyDs C} (h : A.D.RestoresSamples) : (epochStage length nw i A).D.RestoresSamples := by
  by_cases hl : 0 < length
  · have e : epochStage length nw i A = ⟨_, _, epochizeD A.D length nw i⟩ := if_pos hl
    rw [e]
    exact C34_epochize _ _ _ _ h
  · have e : epochStage length nw i A = A := if_neg hl
    rw [e]
    exact h

theorem limitStage_restores {limit : Option Nat} {nw i : Nat} {A : AnyDs C} (h : A.D.RestoresSamples true) :
    (limitStage limit nw i A).D.RestoresSamples true := by
  cases limit with
  | none => exact h
  | some n =>
    by_cases hn : 0 < n
    · have e : limitStage (some n) nw i A = ⟨_, _, limitD A.D n nw i true⟩ := if_pos hn
      rw [e]
      exact C34_limit _ _ _ _ _ h
    · have e : limitStage (some n) nw i A = A := if_neg hn
      rw [e]
      exact h

theorem buildPart_restores (R : WRng ρ) {d : Disk B C} (hd : d.Ok) {w : Sharder.WorkerConfig} (hr : w.rank < w.worldSize) (rot : Nat) {i : Nat}
    (hi : i < w.workers) (training r : Bool) : ∃ D, buildPart R d training w rot i = .ok D ∧ D.RestoresSamples r := by
  obtain ⟨p, h1, h2, h3, h4, h5, _⟩ := slicesFor_ok hd hr rot hi
  refine ⟨_, by unfold buildPart; rw [h1], ?_⟩
  refine C34_map _ _ _ (C34_loader_raw R d.tars hd.tars _ (ids_nodup d training h3) ?_ r)
  intro s hs
  obtain ⟨t, ht, rfl⟩ := List.mem_map.1 hs
  exact ⟨_, _, _, rfl⟩

theorem buildParts_restores (R : Rngs ρ) {w : Sharder.WorkerConfig} (hr : w.rank < w.worldSize) {i : Nat} (hi : i < w.workers) (training r : Bool)
    (l : List (Disk B C × Nat)) (h : ∀ q ∈ l, q.1.Ok) (j : Nat) :
    ∃ Ds, buildParts R training w i j l = .ok Ds ∧ Ds.length = l.length ∧ ∀ D ∈ Ds, D.RestoresSamples r := by
  induction l generalizing j with
  | nil => exact ⟨[], rfl, rfl, by simp⟩
  | cons q l ih =>
    obtain ⟨d, rot⟩ := q
    obtain ⟨D, g1, g2⟩ := buildPart_restores (R.reader j) (h (d, rot) (by simp)) hr rot hi training r
    obtain ⟨Ds, k1, k2, k3⟩ := ih (fun q hq => h q (by simp [hq])) (j + 1)
    refine ⟨D :: Ds, by simp only [buildParts, g1, k1], by simp [k2], ?_⟩
    intro E hE
    rcases List.mem_cons.1 hE with rfl | hE
    · exact g2
    · exact k3 E hE

theorem valSource_restores (R : Rngs ρ) {ds : List (Disk B C)} (hne : ds ≠ []) {w : Sharder.WorkerConfig} (hr : w.rank < w.worldSize) {i : Nat}
    (hi : i < w.workers) (h : ∀ d ∈ ds, d.Ok) (r : Bool) : ∃ A, valSource R ds w i = .ok A ∧ A.D.RestoresSamples r := by
  match ds, hne, h with
  | [d], _, h =>
    obtain ⟨D, g1, g2⟩ := buildPart_restores (R.reader 0) (h d (by simp)) hr 0 hi false r
    exact ⟨⟨_, _, D⟩, by simp only [valSource, g1], g2⟩
  | d :: d' :: l, _, h =>
    obtain ⟨Ds, g1, g2, g3⟩ := buildParts_restores R hr hi false r ((d :: d' :: l).map fun d => (d, 0))
      (fun q hq => by obtain ⟨e, he, rfl⟩ := List.mem_map.1 hq; exact h e he) 0
    cases Ds with
    | nil => simp at g2
    | cons D Ds =>
      refine ⟨⟨_, _, concatD (nth D Ds) (Ds.length + 1)⟩, by simp only [valSource, g1], ?_⟩
      exact C34_concat _ _ _ fun k => g3 _ (nth_mem D Ds k)

/-- **C66, training.** Every sample (batch) that a worker delivers for training, in any history of iterating, saving and resuming, is restored from its restore key: by reading the
raw samples from the tar files and applying loading, cooking, encoding, packing and batching again. Missing: a blended dataset with fewer samples than workers (the
property fails: `C65_violated_small_part`), batch functions that fail (`C26_violated`), grouping (nothing can be restored: `C66_violated_grouping`). -/
theorem C66_train_restores_partial [DecidableEq K] (R : Rngs ρ) (E : Encoder C K) (ds : List (Disk B C)) (o : TrainOpts) (w : Sharder.WorkerConfig) (i : Nat)
    (hne : ds ≠ []) (hds : ∀ d ∈ ds, d.Ok ∧ d.Enough w) (hr : w.rank < w.worldSize) (hi : i < w.workers)
    (hE : E.Keyed o.batchSize o.packing) (hF : E.Fits o.batchSize o.packing) :
    ∃ A, trainDs R E ds o w i = .ok A ∧ A.D.RestoresSamples := by
  obtain ⟨A, h1, h2⟩ := trainSource_ok R hne hr hi hds
  have h3 := shuffleStage_ok R o.shuffleSize h2
  obtain ⟨A', h4⟩ := buildBatch_ok hF o.dropLast (mapStage E.encode (mapStage E.cook (shuffleStage R o.shuffleSize A)))
  have h5 := buildBatch_restores hE.pack hE.group hE.batch hE.encodeBatch (mapStage_restores hE.encode (mapStage_restores hE.cook h3.restores)) h4
  exact ⟨logStage o.logging (epochStage o.epochLength w.numWorkers i A'), by simp only [trainDs, h1, h4],
    logStage_restores (epochStage_restores h5)⟩

/-- **C66, validation.** The same for validation: also with datasets that have fewer samples than there are workers, and also after `restore_state(None)`. -/
theorem C66_val_restores_partial [DecidableEq K] (R : Rngs ρ) (E : Encoder C K) (ds : List (Disk B C)) (o : ValOpts) (w : Sharder.WorkerConfig) (i : Nat)
    (hne : ds ≠ []) (hds : ∀ d ∈ ds, d.Ok) (hr : w.rank < w.worldSize) (hi : i < w.workers)
    (hE : E.Keyed (some o.batchSize) o.packing) (hF : E.Fits (some o.batchSize) o.packing) :
    ∃ A, valDs R E ds o w i = .ok A ∧ A.D.RestoresSamples true := by
  obtain ⟨A, h1, h2⟩ := valSource_restores R hne hr hi hds true
  obtain ⟨A', h4⟩ := buildBatch_ok hF o.dropLast (mapStage E.encode (mapStage E.cook A))
  have h5 := buildBatch_restores hE.pack hE.group hE.batch hE.encodeBatch (mapStage_restores hE.encode (mapStage_restores hE.cook h2)) h4
  exact ⟨logStage o.logging (limitStage o.limit w.numWorkers i A'), by simp only [valDs, h1, h4],
    logStage_restores (limitStage_restores h5)⟩

/-- **C66 is violated** by every task encoder with a grouping criterion, even if all its functions are stateless: no key can be restored, because
`build_batch` does not tell the dataset that groups that `batch` is stateless. -/
theorem C66_violated_grouping [DecidableEq K] (R : Rngs ρ) (E : Encoder C K) (ds : List (Disk B C)) (o : ValOpts) (w : Sharder.WorkerConfig) (i : Nat)
    (hE : E.group.isSome) (A : AnyDs C) (h : valDs R E ds o w i = .ok A) (hl : o.limit = none) (hlog : o.logging = false) (k : List Key) :
    A.D.restoreSample k = none := by
  obtain ⟨g, hg⟩ := Option.isSome_iff_exists.1 hE
  unfold valDs at h
  split at h
  · cases h
  · unfold buildBatch at h
    split at h
    · cases h
    · rename_i hb
      cases h
      split at hb
      · cases hb
      · unfold batchStage at hb
        rw [hg] at hb
        simp only at hb
        cases hb
        rw [hl, hlog]
        exact onlyIf_none _ _

end Verif.Pipeline
