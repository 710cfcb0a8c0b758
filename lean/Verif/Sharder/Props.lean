import Verif.Sharder.SliceLemmas
import Verif.Sharder.BlendLemmas

/-!
# Properties C01 - C06: distribution of a dataset over ranks and workers

`shardWorkers shards ⟨rank, worldSize, numWorkers⟩ max rotation` models
`Sharder.shard_workers`: the list (per worker of this rank) of lists of slices.
`samplesOf` (Spec.lean) lists the samples which slices stand for.
-/

namespace Verif.Sharder
open Verif.Float

/-- What worker `i` of a rank reads (nothing if sharding fails). -/
def reads (res : Except Err (List (List Subshards))) (i : ℕ) : List (List (String × ℕ)) :=
  match res with
  | .ok ps => samplesOf (ps.getD i [])
  | .error _ => []

/-- Everything read by all workers: rank 0 worker 0, rank 0 worker 1, ..., one after the other. -/
def readByAll (shards : List Subshards) (world workers : ℕ) (mx : Option ℕ) (rot : ℤ) :
    List (List (String × ℕ)) :=
  (List.range world).flatMap fun r =>
    (List.range (max 1 workers)).flatMap fun i => reads (shardWorkers shards ⟨r, world, workers⟩ mx rot) i

/-- Sharding succeeds: each rank gets one list of slices per worker. -/
theorem shardWorkers_succeeds (shards : List Subshards) (hw : WholeShards shards) (hne : shards ≠ [])
    (ht : total shards < 2 ^ 53) (w : WorkerConfig) (hr : w.rank < w.worldSize) (mx : Option ℕ)
    (rot : ℤ) :
    ∃ ps, shardWorkers shards w mx rot = .ok ps ∧ ps.length = max 1 w.numWorkers := by
  obtain ⟨ps, h1, h2, _⟩ := shardWorkers_parts shards w mx rot (fun _ _ => True)
    ⟨fun _ => trivial, fun _ _ _ _ _ _ => trivial, fun _ _ _ _ _ => trivial⟩ hw hne hr ht
  exact ⟨ps, h1, h2⟩

theorem range_mul_flatMap {α : Type} (a b : ℕ) (f : ℕ → List α) :
    ((List.range a).flatMap fun r => (List.range b).flatMap fun i => f (r * b + i))
      = (List.range (a * b)).flatMap f := by
  induction a with
  | zero => simp
  | succ a ih =>
    rw [List.range_succ, List.flatMap_append, ih, Nat.succ_mul, List.range_add, List.flatMap_append]
    simp [List.flatMap_map]

theorem segments_flatMap {α : Type} (l : List α) (f : ℕ → ℕ) (hm : ∀ i, f i ≤ f (i + 1))
    (h0 : f 0 = 0) (n : ℕ) :
    ((List.range n).flatMap fun j => (l.drop (f j)).take (f (j + 1) - f j)) = l.take (f n) := by
  induction n with
  | zero => simp [h0]
  | succ n ih =>
    rw [List.range_succ, List.flatMap_append, ih]
    have e : f (n + 1) = f n + (f (n + 1) - f n) := by have := hm n; omega
    conv_rhs => rw [e, List.take_add]
    simp

theorem flatMap_rel {α β : Type} (Rel : List β → List β → Prop) (hr : ∀ x, Rel x x)
    (ha : ∀ a b c d, Rel a b → Rel c d → Rel (a ++ c) (b ++ d)) (l : List α) (f g : α → List β)
    (h : ∀ x ∈ l, Rel (f x) (g x)) : Rel (l.flatMap f) (l.flatMap g) := by
  induction l with
  | nil => exact hr _
  | cons a l ih =>
    rw [List.flatMap_cons, List.flatMap_cons]
    exact ha _ _ _ _ (h a (by simp)) (ih fun x hx => h x (by simp [hx]))

theorem readByAll_rel (shards : List Subshards) (hw : WholeShards shards) (hne : shards ≠ [])
    (ht : total shards < 2 ^ 53) (world workers : ℕ) (hworld : 0 < world) (mx : Option ℕ)
    (rot : ℤ) (Rel) (hc : Covers mx Rel (total shards)) :
    Rel (readByAll shards world workers mx rot) (samplesOf shards) := by
  have hg : 0 < max 1 workers * world := Nat.mul_pos (by omega) hworld
  have key : Rel (readByAll shards world workers mx rot)
      ((List.range world).flatMap fun r => (List.range (max 1 workers)).flatMap fun i =>
        (fun j => ((samplesOf shards).drop (startOf (total shards) (max 1 workers * world) rot j)).take
          (startOf (total shards) (max 1 workers * world) rot (j + 1)
            - startOf (total shards) (max 1 workers * world) rot j)) (r * max 1 workers + i)) := by
    unfold readByAll
    refine flatMap_rel Rel hc.refl hc.app _ _ _ fun r hr => ?_
    refine flatMap_rel Rel hc.refl hc.app _ _ _ fun i hi => ?_
    simp only [List.mem_range] at hr hi
    obtain ⟨ps, h1, h2, h3⟩ := shardWorkers_parts shards ⟨r, world, workers⟩ mx rot Rel hc hw hne hr ht
    obtain ⟨p, hp1, hp2, hp3⟩ := h3 i hi
    rw [h1]
    simp only [reads, List.getD_eq_getElem?_getD, hp1, Option.getD_some, samplesOf_filter]
    exact hp3
  rw [range_mul_flatMap world (max 1 workers) (fun j => ((samplesOf shards).drop
      (startOf (total shards) (max 1 workers * world) rot j)).take
        (startOf (total shards) (max 1 workers * world) rot (j + 1)
          - startOf (total shards) (max 1 workers * world) rot j)), segments_flatMap _ _ (startOf_mono _ _ _) (startOf_zero _ _ _),
    Nat.mul_comm world, startOf_last _ _ _ hg ht, List.take_of_length_le (by rw [samplesOf_length])]
    at key
  exact key

/-- **C01.** Reading all workers' slices one after the other gives every sample of the dataset
exactly once, in the original order (and sharding does not fail). -/
theorem C01_workers_partition_dataset (shards : List Subshards) (hw : WholeShards shards)
    (hne : shards ≠ []) (ht : total shards < 2 ^ 53) (world workers : ℕ) (hworld : 0 < world)
    (rot : ℤ) :
    (∀ r < world, ∃ ps, shardWorkers shards ⟨r, world, workers⟩ none rot = .ok ps ∧
        ps.length = max 1 workers) ∧
      readByAll shards world workers none rot = samplesOf shards :=
  ⟨fun _ hr => shardWorkers_succeeds shards hw hne ht _ hr none rot,
   readByAll_rel shards hw hne ht world workers hworld none rot Eq (covers_none _)⟩

/-- The hypotheses are satisfiable: three shards (one empty, one with two columns), 2 ranks with 2
workers. -/
def exampleShards : List Subshards :=
  [⟨⟨"a.tar", 0, 3, none, none⟩, []⟩, ⟨⟨"b.tar", 0, 0, none, none⟩, []⟩,
   ⟨⟨"c.tar", 0, 4, none, none⟩, [⟨"d.tar", 0, 4, none, none⟩]⟩]

example : WholeShards exampleShards ∧ exampleShards ≠ [] ∧ total exampleShards < 2 ^ 53 ∧
    total exampleShards = 7 := by
  refine ⟨?_, by decide, by decide, by decide⟩
  unfold WholeShards exampleShards Subshards.cols
  decide

/-- In the error case (no shards at all) the code raises. -/
theorem C01_no_shards (w : WorkerConfig) (hr : w.rank < w.worldSize) (mx : Option ℕ) (rot : ℤ) :
    shardWorkers [] w mx rot = .error .invalidShardDistribution := by
  have hbound : w.rank * w.workers + w.workers ≤ w.globalWorkers := by
    unfold WorkerConfig.globalWorkers
    calc w.rank * w.workers + w.workers = w.workers * (w.rank + 1) := by ring
      _ ≤ w.workers * w.worldSize := Nat.mul_le_mul_left _ hr
  have hn : 0 < w.workers := by unfold WorkerConfig.workers; omega
  unfold shardWorkers
  simp only [List.map_nil, List.sum_nil]
  rw [if_neg (by omega), local_offsets _ _ _ _ _ hbound, if_neg (by simp)]
  rw [List.range_succ_eq_map]
  simp [splitShards, findShard]

/-- **C02.** Any two workers (of any ranks) read numbers of samples that differ by at most one. -/
theorem C02_workers_balanced (shards : List Subshards) (hw : WholeShards shards)
    (hne : shards ≠ []) (ht : total shards < 2 ^ 53) (world workers : ℕ) (rot : ℤ)
    (r₁ r₂ i₁ i₂ : ℕ) (hr₁ : r₁ < world) (hr₂ : r₂ < world)
    (hi₁ : i₁ < max 1 workers) (hi₂ : i₂ < max 1 workers) :
    (reads (shardWorkers shards ⟨r₁, world, workers⟩ none rot) i₁).length
      ≤ (reads (shardWorkers shards ⟨r₂, world, workers⟩ none rot) i₂).length + 1 := by
  have hg : 0 < max 1 workers * world := Nat.mul_pos (by omega) (by omega)
  have count : ∀ r i, r < world → i < max 1 workers →
      (reads (shardWorkers shards ⟨r, world, workers⟩ none rot) i).length
        = (workerCounts (total shards) (max 1 workers * world) rot).getD (r * max 1 workers + i) 0 ∧
      r * max 1 workers + i < max 1 workers * world := by
    intro r i hr hi
    obtain ⟨ps, h1, h2, h3⟩ :=
      shardWorkers_parts shards ⟨r, world, workers⟩ none rot Eq (covers_none _) hw hne hr ht
    obtain ⟨p, hp1, hp2, hp3⟩ := h3 i hi
    have hlt : r * max 1 workers + i < max 1 workers * world := by
      calc r * max 1 workers + i < r * max 1 workers + max 1 workers := by omega
        _ = max 1 workers * (r + 1) := by ring
        _ ≤ _ := Nat.mul_le_mul_left _ hr
    rw [h1]
    simp only [reads, List.getD_eq_getElem?_getD, hp1, Option.getD_some, samplesOf_filter]
    rw [hp3, List.length_take, List.length_drop, samplesOf_length]
    simp only [WorkerConfig.globalWorkers, WorkerConfig.workers]
    have hs := startOf_succ (total shards) (max 1 workers * world) rot _ hlt
    have hle := startOf_le (total shards) (max 1 workers * world) rot (r * max 1 workers + i + 1) hg ht
    refine ⟨?_, hlt⟩
    rw [← List.getD_eq_getElem?_getD]
    omega
  obtain ⟨e1, l1⟩ := count r₁ i₁ hr₁ hi₁
  obtain ⟨e2, l2⟩ := count r₂ i₂ hr₂ hi₂
  rw [e1, e2]
  have m : ∀ j, j < max 1 workers * world →
      (workerCounts (total shards) (max 1 workers * world) rot).getD j 0
        ∈ workerCounts (total shards) (max 1 workers * world) rot := by
    intro j hj
    rw [← workerCounts_length (total shards) (max 1 workers * world) rot] at hj
    rw [List.getD_eq_getElem?_getD, List.getElem?_eq_getElem hj, Option.getD_some]
    exact List.getElem_mem hj
  have c1 := workerCounts_mem _ _ rot hg ht _ (m _ l1)
  have c2 := workerCounts_mem _ _ rot hg ht _ (m _ l2)
  omega

/-- **C03.** The slices of a worker only depend on its global index `rank * workers + i` and on
`world * workers`. -/
theorem C03_only_global_index_matters (shards : List Subshards) (hw : WholeShards shards)
    (hne : shards ≠ []) (ht : total shards < 2 ^ 53) (mx : Option ℕ) (rot : ℤ)
    (w₁ w₂ : WorkerConfig) (h₁ : w₁.rank < w₁.worldSize) (h₂ : w₂.rank < w₂.worldSize)
    (hprod : max 1 w₁.numWorkers * w₁.worldSize = max 1 w₂.numWorkers * w₂.worldSize)
    (i₁ i₂ : ℕ) (hi₁ : i₁ < max 1 w₁.numWorkers) (hi₂ : i₂ < max 1 w₂.numWorkers)
    (hidx : w₁.rank * max 1 w₁.numWorkers + i₁ = w₂.rank * max 1 w₂.numWorkers + i₂) :
    ∃ ps₁ ps₂ slices, shardWorkers shards w₁ mx rot = .ok ps₁ ∧
      shardWorkers shards w₂ mx rot = .ok ps₂ ∧
      ps₁[i₁]? = some slices ∧ ps₂[i₂]? = some slices := by
  have hc : Covers mx (fun _ _ => True) (total shards) :=
    ⟨fun _ => trivial, fun _ _ _ _ _ _ => trivial, fun _ _ _ _ _ => trivial⟩
  obtain ⟨ps₁, a1, a2, a3⟩ := shardWorkers_parts shards w₁ mx rot _ hc hw hne h₁ ht
  obtain ⟨ps₂, b1, b2, b3⟩ := shardWorkers_parts shards w₂ mx rot _ hc hw hne h₂ ht
  obtain ⟨p, p1, p2, _⟩ := a3 i₁ hi₁
  obtain ⟨q, q1, q2, _⟩ := b3 i₂ hi₂
  have hgg : w₁.globalWorkers = w₂.globalWorkers := hprod
  have hii : w₁.rank * w₁.workers + i₁ = w₂.rank * w₂.workers + i₂ := hidx
  rw [hgg, hii, q2] at p2
  obtain rfl : q = p := by simpa using p2
  exact ⟨ps₁, ps₂, _, a1, b1, p1, q1⟩

example : (max 1 2 * 3 = max 1 6 * 1) ∧ (2 * max 1 2 + 1 = 0 * max 1 6 + 5) := by decide

/-! ### C04: splitting long sequences -/

/-- The full statement of C04 for `_split_shard`: the slices cover the range `[a, b)` exactly. -/
def C04_statement : Prop :=
  ∀ (s : Subshards), (∀ c ∈ s.cols, c.offset = 0) → ∀ (a b m : ℕ), a ≤ b → b ≤ s.head.count →
    s.head.count ≤ 2 ^ 48 → 0 < m →
    samplesOf (splitShard s a b (some m)) = (s.samples.drop a).take (b - a)

/-- **C04 is violated by the code**: a shard with 185 samples and a maximum of 2 samples per
sequence is cut into slices that together contain only 184 samples (`int(92 * (185 / 92)) = 184`). -/
theorem C04_violated : ¬ C04_statement := by
  intro h
  have := h ⟨⟨"a.tar", 0, 185, none, none⟩, []⟩ (by simp [Subshards.cols]) 0 185 2
    (by decide) (by decide) (by decide) (by decide)
  have := congrArg List.length this
  revert this
  decide +kernel

/-- The same at the level of a whole run: with `max_samples_per_sequence = 2` one worker reading a
dataset of one shard with 185 samples never reads the last one. -/
theorem C04_violated_run :
    let shards : List Subshards := [⟨⟨"a.tar", 0, 185, none, none⟩, []⟩]
    [("a.tar", 184)] ∈ samplesOf shards ∧ [("a.tar", 184)] ∉ readByAll shards 1 1 (some 2) 0 := by
  decide +kernel

/-- **C04, the part that holds.** The slices cover the range in order, without gaps and overlaps,
except that the very last sample of the range may be missing; it is not missing if the number of
slices divides the number of samples, or if the range is not split at all.
Missing for the full property: the last sample (see `C04_violated`). -/
theorem C04_split_covers_partial (s : Subshards) (hs : ∀ c ∈ s.cols, c.offset = 0) (a b m : ℕ)
    (hab : a ≤ b) (hb : b ≤ s.head.count) (hcount : s.head.count ≤ 2 ^ 48) (hm : 0 < m) :
    let range := (s.samples.drop a).take (b - a)
    (samplesOf (splitShard s a b (some m)) = range ∨
      samplesOf (splitShard s a b (some m)) = range.dropLast) ∧
    (2 * (b - a) ≤ 3 * m ∨ sliceCount (b - a) m ∣ (b - a) →
      samplesOf (splitShard s a b (some m)) = range) := by
  have hrange : (s.samples.drop a).take (b - a) = cells s a (b - a) := by
    rw [samples_whole s hs, cells_drop _ _ _ _ (by omega), Nat.zero_add,
      cells_take _ _ _ _ (by omega)]
  simp only [hrange]
  obtain ⟨c, h1, h2, h3, h4⟩ := samplesOf_splitShard s a b m hm (by omega)
  refine ⟨?_, ?_⟩
  · rw [h1]
    by_cases hc : c = b - a
    · left; rw [hc]
    · right
      have : b - a = c + 1 := by omega
      rw [this, List.dropLast_eq_take, cells_length, Nat.add_sub_cancel,
        cells_take _ _ _ _ (by omega)]
  · intro h
    rw [h1]
    rcases h4 with h4 | ⟨hgt, h4⟩
    · rw [h4]
    · obtain ⟨g1, g2, g3, g4⟩ := sliceCount_spec _ m hm (by omega) hgt
      rcases h with h | h
      · omega
      · rw [h4, off_last_of_dvd _ _ (by omega) (by omega) h]

/-- **C04, the part that holds, for whole runs**: with any maximum the workers together never read
a sample twice nor out of order (what they read is a subsequence of the dataset). -/
theorem C04_no_duplicates_partial (shards : List Subshards) (hw : WholeShards shards)
    (hne : shards ≠ []) (ht : total shards ≤ 2 ^ 48) (world workers : ℕ) (hworld : 0 < world)
    (rot : ℤ) (m : ℕ) (hm : 0 < m) :
    (readByAll shards world workers (some m) rot).Sublist (samplesOf shards) :=
  readByAll_rel shards hw hne (by omega) world workers hworld (some m) rot _
    (covers_sublist m hm _ ht)

example : 2 * (10 - 0) ≤ 3 * 4 ∨ sliceCount 10 4 ∣ 10 := by
  right; decide +kernel

/-- **C05.** With a maximum of `m` samples per sequence no slice is longer than `1.5 * m`. -/
theorem C05_slices_bounded (shards : List Subshards) (hw : WholeShards shards)
    (hne : shards ≠ []) (ht : total shards ≤ 2 ^ 48) (w : WorkerConfig)
    (hr : w.rank < w.worldSize) (rot : ℤ) (m : ℕ) (hm : 0 < m) (ps : List (List Subshards))
    (hps : shardWorkers shards w (some m) rot = .ok ps) :
    ∀ slices ∈ ps, ∀ s ∈ slices, 2 * s.head.count ≤ 3 * m := by
  obtain ⟨ps', h1, h2, h3⟩ := shardWorkers_parts shards w (some m) rot _
    (covers_sublist m hm _ ht) hw hne hr (by omega)
  rw [hps] at h1
  obtain rfl : ps = ps' := by simpa using h1
  intro slices hsl s hs
  obtain ⟨i, hi, rfl⟩ := List.getElem_of_mem hsl
  obtain ⟨p, p1, p2, _⟩ := h3 i (by omega)
  rw [List.getElem?_eq_getElem hi] at p1
  obtain h : ps[i] = _ := by simpa using p1
  rw [h] at hs
  have hs' := (List.mem_filter.mp hs).1
  have hn : 0 < w.workers := by unfold WorkerConfig.workers; omega
  have hg : 0 < w.globalWorkers := by
    unfold WorkerConfig.globalWorkers
    exact Nat.mul_pos hn (by omega)
  obtain ⟨s0, c, d, hd, hx⟩ := part_mem shards m _ _ (startOf_le _ _ _ _ hg (by omega)) p p2 s hs'
  exact splitShard_bound s0 c d m hm (by omega) s hx

example : ∃ ps, shardWorkers exampleShards ⟨0, 1, 1⟩ (some 2) 0 = .ok ps ∧ ps.length = 1 :=
  shardWorkers_succeeds exampleShards (by unfold WholeShards exampleShards Subshards.cols; decide)
    (by decide) (by decide) ⟨0, 1, 1⟩ (by decide) (some 2) 0

/-- The slice has no byte range of its own: it is looked up in the index of the file when the slice is opened. -/
def Subshards.Fresh (s : Subshards) : Prop := ∀ c ∈ s.cols, c.byteOffset = none ∧ c.byteSize = none

theorem slice_fresh (s : Subshards) (a n : ℕ) : (s.slice a n).Fresh := by
  intro c hc
  rcases List.mem_cons.1 hc with rfl | hc
  · exact ⟨rfl, rfl⟩
  · obtain ⟨x, _, rfl⟩ := List.mem_map.1 hc
    exact ⟨rfl, rfl⟩

theorem splitShard_fresh (s : Subshards) (a b : ℕ) (mx : Option ℕ) : ∀ x ∈ splitShard s a b mx, x.Fresh := by
  intro x hx
  unfold splitShard at hx
  cases mx with
  | none => rw [List.mem_singleton.1 hx]; exact slice_fresh _ _ _
  | some m =>
    dsimp only at hx
    split at hx
    · obtain ⟨i, _, rfl⟩ := List.mem_map.1 hx
      exact slice_fresh _ _ _
    · rw [List.mem_singleton.1 hx]; exact slice_fresh _ _ _

theorem splitLoop_fresh (mx : Option ℕ) : ∀ (ts : List ℕ) (cum start : ℕ) (cur : Subshards) (rest : List Subshards) (ps : List (List Subshards)),
    splitLoop mx ts cum start cur rest = .ok ps → ∀ p ∈ ps, ∀ x ∈ p, x.Fresh
  | [], _, _, _, _, ps, h => by
    unfold splitLoop at h
    cases h
    intro p hp
    cases hp
  | t :: ts, cum, start, cur, rest, ps, h => by
    unfold splitLoop at h
    cases hf : findShard t cum (cur :: rest) with
    | none => rw [hf] at h; cases h
    | some r =>
      obtain ⟨skipped, cum', found, rest'⟩ := r
      rw [hf] at h
      dsimp only at h
      cases hl : splitLoop mx ts cum' (t - cum') found rest' with
      | error e => rw [hl] at h; cases h
      | ok parts =>
        rw [hl] at h
        cases h
        intro p hp x hx
        rcases List.mem_cons.1 hp with rfl | hp
        · cases skipped with
          | nil => exact splitShard_fresh _ _ _ _ x hx
          | cons first middle =>
            rcases List.mem_append.1 hx with hx | hx
            · rcases List.mem_append.1 hx with hx | hx
              · split at hx
                · exact splitShard_fresh _ _ _ _ x hx
                · cases hx
              · obtain ⟨y, _, hx⟩ := List.mem_flatMap.1 hx
                exact splitShard_fresh _ _ _ _ x hx
            · exact splitShard_fresh _ _ _ _ x hx
        · exact splitLoop_fresh mx ts _ _ _ _ parts hl p hp x hx

/-- **C01, bytes**: no slice keeps the byte range of the shard it was cut from, whatever the shards contain: where a slice begins and ends in the file
is found from the index of the file. -/
theorem C01_bytes (shards : List Subshards) (w : WorkerConfig) (mx : Option ℕ) (rot : ℤ) (ps : List (List Subshards))
    (h : shardWorkers shards w mx rot = .ok ps) : ∀ slices ∈ ps, ∀ s ∈ slices, s.Fresh := by
  unfold shardWorkers at h
  dsimp only at h
  split at h
  · cases h
  · split at h
    · cases h
    · revert h
      cases hs : splitShards shards ((globalOffsets (shards.map (·.head.count)).sum w.globalWorkers rot).drop (w.rank * w.workers) |>.take (w.workers + 1)) mx with
      | error e => intro h; cases h
      | ok parts =>
        intro h
        cases h
        intro slices hsl s hs'
        obtain ⟨p, hp, rfl⟩ := List.mem_map.1 hsl
        have hs' := (List.mem_filter.1 hs').1
        unfold splitShards at hs
        generalize ((globalOffsets (shards.map (·.head.count)).sum w.globalWorkers rot).drop (w.rank * w.workers) |>.take (w.workers + 1)) = os at hs
        cases os with
        | nil => cases hs; cases hp
        | cons o os =>
          dsimp only at hs
          cases hf : findShard o 0 shards with
          | none => rw [hf] at hs; cases hs
          | some r =>
            rw [hf] at hs
            exact splitLoop_fresh mx os _ _ _ _ parts hs p hp s hs'

/-! ### C06: several datasets loaded together -/

/-- The number of samples worker `i` of rank `r` owns over all datasets, when dataset number `d` is
built with its rotation offset (task_encoder/base.py:502-524). -/
def ownedOverall (datasets : List (List Subshards)) (world workers r i : ℕ) : ℕ :=
  ((datasets.zip (rotationOffsets (datasets.map total) (max 1 workers * world))).map fun p =>
    (reads (shardWorkers p.1 ⟨r, world, workers⟩ none (p.2 : ℤ)) i).length).sum

/-- Over all datasets together the remainders are dealt round robin in the order of the bit reversal sequence. -/
theorem ownedOverall_eq (datasets : List (List Subshards))
    (hd : ∀ shards ∈ datasets, WholeShards shards ∧ shards ≠ [] ∧ total shards < 2 ^ 53)
    (world workers r i : ℕ) (hr : r < world) (hi : i < max 1 workers) :
    ∃ j < max 1 workers * world, (bitRev (List.range (max 1 workers * world))).getD j 0 = r * max 1 workers + i ∧
      ownedOverall datasets world workers r i = dealt (max 1 workers * world) j (datasets.map total).sum := by
  set g := max 1 workers * world with hgdef
  have hg : 0 < g := Nat.mul_pos (by omega) (by omega)
  have hlt : r * max 1 workers + i < g := by
    calc r * max 1 workers + i < r * max 1 workers + max 1 workers := by omega
      _ = max 1 workers * (r + 1) := by ring
      _ ≤ _ := Nat.mul_le_mul_left _ hr
  obtain ⟨j, hj, hjw⟩ := exists_position g _ hlt
  refine ⟨j, hj, hjw, ?_⟩
  unfold ownedOverall
  rw [← hgdef, rotationOffsets_eq]
  have gen : ∀ (ds : List (List Subshards)) (S : ℕ),
      (∀ shards ∈ ds, WholeShards shards ∧ shards ≠ [] ∧ total shards < 2 ^ 53) →
      dealt g j S + ((ds.zip (rotsFrom g S (ds.map total))).map fun p =>
        (reads (shardWorkers p.1 ⟨r, world, workers⟩ none (p.2 : ℤ)) i).length).sum
        = dealt g j (S + (ds.map total).sum) := by
    intro ds
    induction ds with
    | nil => intro S _; simp [rotsFrom]
    | cons d ds ih =>
      intro S hds
      obtain ⟨hw, hne, ht⟩ := hds d (by simp)
      simp only [List.map_cons, rotsFrom, List.zip_cons_cons, List.sum_cons]
      rw [← Nat.add_assoc, ← Nat.add_assoc, ← ih (S + total d) (fun x hx => hds x (by simp [hx]))]
      congr 1
      rw [← dealt_step g j S (total d) hj]
      congr 1
      rw [← workerCounts_at (total d) g (S % g : ℕ) ht j hj, hjw]
      obtain ⟨ps, h1, h2, h3⟩ := shardWorkers_parts d ⟨r, world, workers⟩ none ((S % g : ℕ) : ℤ) Eq
        (covers_none _) hw hne hr ht
      obtain ⟨p, hp1, hp2, hp3⟩ := h3 i hi
      rw [h1]
      simp only [reads, List.getD_eq_getElem?_getD, hp1, Option.getD_some, samplesOf_filter]
      rw [hp3, List.length_take, List.length_drop, samplesOf_length]
      simp only [WorkerConfig.globalWorkers, WorkerConfig.workers, ← hgdef]
      have hs := startOf_succ (total d) g ((S % g : ℕ) : ℤ) _ hlt
      have hle := startOf_le (total d) g ((S % g : ℕ) : ℤ) (r * max 1 workers + i + 1) hg ht
      rw [← List.getD_eq_getElem?_getD]
      omega
  have := gen datasets 0 hd
  rw [dealt_zero g j hj] at this
  simpa using this

/-- **C06.** Over all datasets together any two workers own numbers of samples that differ by at
most one. -/
theorem C06_blend_balanced (datasets : List (List Subshards))
    (hd : ∀ shards ∈ datasets, WholeShards shards ∧ shards ≠ [] ∧ total shards < 2 ^ 53)
    (world workers : ℕ) (r₁ r₂ i₁ i₂ : ℕ) (hr₁ : r₁ < world) (hr₂ : r₂ < world)
    (hi₁ : i₁ < max 1 workers) (hi₂ : i₂ < max 1 workers) :
    ownedOverall datasets world workers r₁ i₁ ≤ ownedOverall datasets world workers r₂ i₂ + 1 := by
  obtain ⟨j1, hj1, _, e1⟩ := ownedOverall_eq datasets hd world workers r₁ i₁ hr₁ hi₁
  obtain ⟨j2, hj2, _, e2⟩ := ownedOverall_eq datasets hd world workers r₂ i₂ hr₂ hi₂
  rw [e1, e2]
  exact dealt_balanced _ j1 j2 _ hj2

example : ∀ shards ∈ [exampleShards, exampleShards],
    WholeShards shards ∧ shards ≠ [] ∧ total shards < 2 ^ 53 := by
  unfold WholeShards exampleShards Subshards.cols
  decide

end Verif.Sharder
