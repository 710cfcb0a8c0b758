import Verif.Pipeline.TrainEpochs
import Verif.Pipeline.Content

/-!
# C105: the length of a loader

`len(loader)` (for the two kinds of loaders that is `len` of the dataset: torch `DataLoader.__len__` for an `IterableDataset` and `batch_size=None`) against the number of batches a `for` loop delivers.
-/

namespace Verif.Pipeline

open Verif.Stream Verif.Wds Verif.Loader

variable {B C K ρ : Type}

/-! ### Model -/

/-- sample_loader.py:510-513: `len` of the reader of a dataset: the samples of all slices of all workers of the rank (map_dataset.py:106-107 hands it on). -/
def Disk.lenOf (d : Disk B C) (w : Sharder.WorkerConfig) : Except BErr Nat :=
  match Sharder.shardWorkers d.shards w d.maxSamples 0 with
  | .error e => .error (.shard e)
  | .ok ps => .ok ((ps.map fun p => (p.map (·.head.count)).sum).sum)

/-- concat_dataset.py:50-51 -/
def lensOf (w : Sharder.WorkerConfig) : List (Disk B C) → Except BErr Nat
  | [] => .ok 0
  | d :: l =>
    match d.lenOf w, lensOf w l with
    | .ok n, .ok m => .ok (n + m)
    | .error e, _ => .error e
    | _, .error e => .error e

/-- group_batch_dataset.py:141-143, batch_dataset.py:111-127 (`batchLen`); packing_dataset.py:140-144 and map_dataset.py:106-107 hand `len` on -/
def batchStageLen (E : Encoder C K) (batchSize : Nat) (dropLast : Bool) (nw n : Nat) : Nat :=
  if E.group.isSome then n else batchLen n nw batchSize dropLast

/-- limit_dataset.py:58-59 -/
def limitLen (limit : Option Nat) (n : Nat) : Nat :=
  match limit with
  | none => n
  | some m => if 0 < m then min m n else n

/-- `len(loader)` of a validation loader of the rank (log_sample_dataset.py, gc_dataset.py:94-95, savable_loader.py:81-82, 341-342 hand `len` on). -/
def valLen (E : Encoder C K) (ds : List (Disk B C)) (o : ValOpts) (w : Sharder.WorkerConfig) : Except BErr Nat :=
  match lensOf w ds with
  | .error e => .error e
  | .ok n => .ok (limitLen o.limit (batchStageLen E o.batchSize o.dropLast w.numWorkers n))

/-- `len(loader)` of a training loader with virtual epochs: epochize_dataset.py:110-111. (Without, it is an approximation, blend_dataset.py:67-73, of something that does not end.) -/
def trainLen (o : TrainOpts) : Option Nat := if 0 < o.epochLength then some o.epochLength else none

/-! ### Specification -/

/-- Nothing is skipped, and nothing multiplied. -/
structure Fns.OneToOne (F : Fns C K) : Prop where
  cook : ∀ c, (F.cook c).length = 1
  encode : ∀ c, (F.encode c).length = 1
  batch : ∀ l, (F.batch l).isSome
  encodeBatch : ∀ c, (F.encodeBatch c).length = 1

/-- The number of batches of worker `i`. -/
def workerBatches (ds : List (Disk B C)) (o : ValOpts) (w : Sharder.WorkerConfig) (i : Nat) : Nat :=
  nBatches ((ds.map fun d => (d.reads w i).length).sum) o.batchSize o.dropLast

/-- The number of those of `m` batches of worker `i` that are left by the limit. -/
def ValOpts.cutLen (o : ValOpts) (nw i m : Nat) : Nat :=
  match o.limit with
  | none => m
  | some n => if 0 < n then min (localShare n nw i) m else m

/-! ### Proofs -/

theorem flatMap_one {α β : Type} {f : α → List β} (h : ∀ a, (f a).length = 1) (l : List α) : (l.flatMap f).length = l.length := by
  induction l with
  | nil => rfl
  | cons a l ih => rw [List.flatMap_cons, List.length_append, h, ih, List.length_cons, Nat.add_comm]

theorem filterMap_all {α β : Type} {f : α → Option β} (h : ∀ a, (f a).isSome) (l : List α) : (l.filterMap f).length = l.length := by
  induction l with
  | nil => rfl
  | cons a l ih =>
    obtain ⟨b, hb⟩ := Option.isSome_iff_exists.1 (h a)
    rw [List.filterMap_cons_some hb, List.length_cons, ih, List.length_cons]

theorem cut_length {α : Type} (o : ValOpts) (nw i : Nat) (l : List α) : (o.cut nw i l).length = o.cutLen nw i l.length := by
  unfold ValOpts.cut ValOpts.cutLen
  cases o.limit with
  | none => rfl
  | some n =>
    dsimp only
    split
    · rw [List.length_take]
    · rfl

theorem samplesOf_length (p : List Sharder.Subshards) : (Sharder.samplesOf p).length = (p.map (·.head.count)).sum := by
  induction p with
  | nil => rfl
  | cons s p ih => rw [Sharder.samplesOf_cons, List.length_append, ih]; simp [Sharder.Subshards.samples]

theorem flatten_ones {α : Type} {l : List (List α)} (h : ∀ x ∈ l, x.length = 1) : l.flatten.length = l.length := by
  induction l with
  | nil => rfl
  | cons a l ih => rw [List.flatten_cons, List.length_append, h a (by simp), ih fun x hx => h x (by simp [hx]), List.length_cons, Nat.add_comm]

theorem reads_length {d : Disk B C} (hd : d.Ok) {w : Sharder.WorkerConfig} (hr : w.rank < w.worldSize) {i : Nat} (hi : i < w.workers)
    {ps : List (List Sharder.Subshards)} (h : Sharder.shardWorkers d.shards w d.maxSamples 0 = .ok ps) : (d.reads w i).length = ((ps.getD i []).map (·.head.count)).sum := by
  obtain ⟨p, _, _, _, h4, _, h6⟩ := slicesFor_ok hd hr 0 hi
  rw [show ((0 : Nat) : Int) = 0 from rfl] at h6
  have h7 : Sharder.reads (Sharder.shardWorkers d.shards w d.maxSamples 0) i = Sharder.samplesOf (ps.getD i []) := by rw [h]; rfl
  unfold Disk.reads
  rw [flatten_ones, h7, samplesOf_length]
  intro x hx
  rw [h6] at hx
  obtain ⟨s, hs, hx⟩ := List.mem_flatMap.1 (h4.subset hx)
  obtain ⟨j, _, rfl⟩ := List.mem_map.1 hx
  simp [Sharder.Subshards.sampleAt, Sharder.Subshards.cols, hd.column s hs]

theorem lenOf_eq {d : Disk B C} (hd : d.Ok) {w : Sharder.WorkerConfig} (hr : w.rank < w.worldSize) :
    d.lenOf w = .ok ((List.range w.workers).map fun i => (d.reads w i).length).sum := by
  obtain ⟨ps, h1, h2⟩ := Sharder.shardWorkers_succeeds d.shards hd.whole hd.nonempty (lt_of_le_of_lt hd.size (by norm_num)) w hr d.maxSamples 0
  have hw : w.workers = max 1 w.numWorkers := rfl
  unfold Disk.lenOf
  rw [h1]
  dsimp only
  congr 2
  apply List.ext_getElem
  · simp [h2, hw]
  · intro i hi hi'
    simp only [List.length_map, List.length_range] at hi hi'
    simp only [List.getElem_map, List.getElem_range]
    rw [reads_length hd hr hi' h1, List.getD_eq_getElem?_getD, List.getElem?_eq_getElem hi, Option.getD_some]

theorem lensOf_eq {w : Sharder.WorkerConfig} (hr : w.rank < w.worldSize) {ds : List (Disk B C)} (hds : ∀ d ∈ ds, d.Ok) :
    lensOf w ds = .ok ((List.range w.workers).map fun i => (ds.map fun d => (d.reads w i).length).sum).sum := by
  induction ds with
  | nil => simp [lensOf]
  | cons d l ih =>
    rw [lensOf, lenOf_eq (hds d (by simp)) hr, ih fun q hq => hds q (by simp [hq])]
    dsimp only
    congr 1
    induction List.range w.workers with
    | nil => rfl
    | cons a t ih => simp only [List.map_cons, List.sum_cons] at ih ⊢; omega

theorem sum_ge {l : List Nat} {k : Nat} (h : ∀ a ∈ l, k ≤ a) : l.length * k ≤ l.sum := by
  induction l with
  | nil => simp
  | cons a l ih =>
    have h1 := ih fun b hb => h b (by simp [hb])
    have h2 := h a (by simp)
    rw [List.length_cons, Nat.succ_mul, List.sum_cons]
    omega

theorem sum_le {l : List Nat} {k : Nat} (h : ∀ a ∈ l, a ≤ k) : l.sum ≤ l.length * k := by
  induction l with
  | nil => simp
  | cons a l ih =>
    have h1 := ih fun b hb => h b (by simp [hb])
    have h2 := h a (by simp)
    rw [List.length_cons, Nat.succ_mul, List.sum_cons]
    omega

theorem sum_lt {l : List Nat} {k : Nat} (h : ∀ a ∈ l, a ≤ k) {b : Nat} (hb : b ∈ l) (hbk : b < k) : l.sum < l.length * k := by
  induction l with
  | nil => cases hb
  | cons a l ih =>
    have h2 := h a (by simp)
    rw [List.length_cons, Nat.succ_mul, List.sum_cons]
    rcases List.mem_cons.1 hb with rfl | hb
    · have h1 := sum_le fun c hc => h c (List.mem_cons_of_mem b hc)
      omega
    · have h1 := ih (fun c hc => h c (List.mem_cons_of_mem a hc)) hb
      omega

/-- In a balanced list there are only two values. -/
theorem balanced_values {l : List Nat} (hb : ∀ a ∈ l, ∀ b ∈ l, a ≤ b + 1) {a : Nat} (ha : a ∈ l) : a = l.sum / l.length ∨ a = l.sum / l.length + 1 := by
  have hn : 0 < l.length := List.length_pos_of_mem ha
  have h1 := Nat.div_add_mod l.sum l.length
  have h2 := Nat.mod_lt l.sum hn
  generalize hq : l.sum / l.length = q at h1
  rcases Nat.lt_or_ge a q with h | h
  · exfalso
    have := sum_lt (k := q) (fun b hbm => by have := hb b hbm a ha; omega) ha h
    rw [← h1] at this
    omega
  · rcases Nat.lt_or_ge (q + 1) a with h' | h'
    · exfalso
      have := sum_ge (k := q + 1) (l := l) fun b hbm => by have := hb a ha b hbm; omega
      rw [Nat.mul_succ] at this
      omega
    · omega

/-- What can be computed from a balanced list depends only on its length and its sum. -/
theorem balanced_sum {l : List Nat} (hb : ∀ a ∈ l, ∀ b ∈ l, a ≤ b + 1) (g : Nat → Nat) :
    (l.map g).sum = (l.length - l.sum % l.length) * g (l.sum / l.length) + (l.sum % l.length) * g (l.sum / l.length + 1) := by
  rcases Nat.eq_zero_or_pos l.length with hn | hn
  · have := List.eq_nil_of_length_eq_zero hn
    subst this
    simp
  have key : ∀ (q : Nat) (l : List Nat), (∀ a ∈ l, a = q ∨ a = q + 1) → ∃ c ≤ l.length, l.sum = l.length * q + c ∧ (l.map g).sum = (l.length - c) * g q + c * g (q + 1) := by
    intro q l
    induction l with
    | nil => intro _; exact ⟨0, by simp, by simp, by simp⟩
    | cons a l ih =>
      intro h
      obtain ⟨c, h1, h2, h3⟩ := ih fun b hb => h b (by simp [hb])
      rcases h a (by simp) with rfl | rfl
      · refine ⟨c, by rw [List.length_cons]; omega, by rw [List.length_cons, List.sum_cons, Nat.succ_mul]; omega, ?_⟩
        rw [List.map_cons, List.sum_cons, h3, List.length_cons, show l.length + 1 - c = (l.length - c) + 1 by omega, Nat.succ_mul]
        omega
      · refine ⟨c + 1, by rw [List.length_cons]; omega, by rw [List.length_cons, List.sum_cons, Nat.succ_mul]; omega, ?_⟩
        rw [List.map_cons, List.sum_cons, h3, List.length_cons, show l.length + 1 - (c + 1) = l.length - c by omega, Nat.succ_mul]
        omega
  obtain ⟨c, h1, h2, h3⟩ := key (l.sum / l.length) l fun a ha => balanced_values hb ha
  have h4 := Nat.div_add_mod l.sum l.length
  have : c = l.sum % l.length := by omega
  rw [h3, this]

theorem localShare_balanced (n nw : Nat) : ∀ a ∈ (List.range (max 1 nw)).map (localShare n nw), ∀ b ∈ (List.range (max 1 nw)).map (localShare n nw), a ≤ b + 1 := by
  intro a ha b hb
  obtain ⟨i, _, rfl⟩ := List.mem_map.1 ha
  obtain ⟨j, _, rfl⟩ := List.mem_map.1 hb
  exact C18_shares_balanced n nw i j

/-- The same number of batches, however the balanced shares are distributed to the workers. -/
theorem batches_balanced {n : Nat} {N : Nat → Nat} (hb : ∀ i < max 1 n, ∀ j < max 1 n, N i ≤ N j + 1) (g : Nat → Nat) :
    ((List.range (max 1 n)).map fun i => g (N i)).sum = ((List.range (max 1 n)).map fun i => g (localShare ((List.range (max 1 n)).map N).sum n i)).sum := by
  have h1 : ∀ a ∈ (List.range (max 1 n)).map N, ∀ b ∈ (List.range (max 1 n)).map N, a ≤ b + 1 := by
    intro a ha b hb'
    obtain ⟨i, hi, rfl⟩ := List.mem_map.1 ha
    obtain ⟨j, hj, rfl⟩ := List.mem_map.1 hb'
    exact hb i (List.mem_range.1 hi) j (List.mem_range.1 hj)
  have h2 := balanced_sum h1 g
  have h3 := balanced_sum (localShare_balanced ((List.range (max 1 n)).map N).sum n) g
  rw [List.map_map] at h2 h3
  simp only [Function.comp_def, List.length_map, List.length_range, sum_shares] at h2 h3
  rw [h2, h3]

/-! ### Theorems -/

/-- **C105, what is delivered.** If the functions skip nothing and multiply nothing, without packing and grouping: each loop over a validation loader, whatever the kind, the number of worker processes and the schedule, delivers
as many batches as the workers have, each up to its share of the limit. -/
theorem C105_delivered [DecidableEq K] (R : Nat → Rngs ρ) (E : Encoder C K) (ds : List (Disk B C)) (o : ValOpts) (w : Sharder.WorkerConfig)
    (hne : ds ≠ []) (hds : ∀ d ∈ ds, d.Val) (hr : w.rank < w.worldSize) (hb : 0 < o.batchSize)
    (load : Disk B C → Raw B → Option C) (hload : ∀ d ∈ ds, Computes d.load (load d)) (hall : ∀ d ∈ ds, ∀ x, (load d x).isSome)
    (F : Fns C K) (hE : E.Is F (some o.batchSize) o.packing) (hF : F.OneToOne) (hp : o.packing = none) (hg : E.group = none) :
    ∃ A : Nat → AnyDs C, (∀ i < max 1 w.numWorkers, valDs (R i) E ds o w i = .ok (A i)) ∧
      (∀ (kind : Kind) (m : Nat), ∃ ls st, Loops w.numWorkers (rankDs kind w.numWorkers (fun _ => A) w.rank) ls st ∧ ls.length = m) ∧
      ∀ (kind : Kind) (ls : List (List (Smp C))) st, Loops w.numWorkers (rankDs kind w.numWorkers (fun _ => A) w.rank) ls st → ∀ k (hk : k < ls.length),
        ls[k].length = ((List.range (max 1 w.numWorkers)).map fun i => o.cutLen w.numWorkers i (workerBatches ds o w i)).sum := by
  have hw : w.workers = max 1 w.numWorkers := rfl
  have h : ∀ i, ∃ (A : AnyDs C) (out : Nat → List (Smp C)), i < max 1 w.numWorkers → valDs (R i) E ds o w i = .ok A ∧ Passes A.D out ∧
      ∀ k, (out k).length = o.cutLen w.numWorkers i (workerBatches ds o w i) := by
    intro i
    by_cases hi : i < max 1 w.numWorkers
    · obtain ⟨A, h1, out, h2, packs, batches, h3, h4, h5⟩ := C68_val_contents_partial (R i) E ds o w i hne hds hr (by rw [hw]; exact hi) hb load hload F hE
      refine ⟨A, out, fun _ => ⟨h1, h2, fun k => ?_⟩⟩
      have h6 := congrArg List.length (h5 k)
      rw [List.length_map, cut_length] at h6
      rw [h6]
      congr 1
      simp only [hg, Option.isSome_none, Bool.false_eq_true, if_false] at h4 ⊢
      rw [flatMap_one hF.encodeBatch, filterMap_all hF.batch]
      simp only [Batched, Bool.false_eq_true, if_false] at h4
      rw [nBatches_eq hb h4]
      unfold workerBatches
      congr 1
      rw [hp] at h3
      simp only [Packed] at h3
      rw [h3, flatMap_one hF.encode, flatMap_one hF.cook, List.length_flatMap]
      congr 1
      apply List.map_congr_left
      intro d hd
      rw [filterMap_all (hall d hd), Disk.raws, List.length_map]
    · exact ⟨⟨Unit, Unit, ⟨(), fun _ => .stop (), fun _ => (), fun _ => (), fun _ => (), fun _ => none, false⟩⟩, fun _ => [], fun h => absurd h hi⟩
  choose A out h using h
  refine ⟨A, fun i hi => (h i hi).1, ?_, ?_⟩
  · intro kind m
    have h1 : ∀ i, ∃ out', i < max 1 w.numWorkers → Passes (rankDs kind w.numWorkers (fun _ => A) w.rank i).D out' := by
      intro i
      by_cases hi : i < max 1 w.numWorkers
      · obtain ⟨t, ht⟩ := loaderDs_passes kind w.numWorkers (h i hi).2.1 i (globalId w.numWorkers w.rank i)
        exact ⟨_, fun _ => ht⟩
      · exact ⟨fun _ => [], fun h => absurd h hi⟩
    choose out' h1 using h1
    exact loops_exist h1 m
  intro kind ls st hls k hk
  rw [loops_length (A := fun _ => A) (fun i hi => (h i hi).2.1) hls k hk]
  congr 1
  apply List.map_congr_left
  intro i hi
  exact (h i (List.mem_range.1 hi)).2.2 k

/-- Without packing and grouping, the announced length. -/
theorem valLen_eq (E : Encoder C K) (ds : List (Disk B C)) (o : ValOpts) (w : Sharder.WorkerConfig) (hds : ∀ d ∈ ds, d.Ok) (hr : w.rank < w.worldSize) (hg : E.group = none) :
    valLen E ds o w = .ok (limitLen o.limit (batchLen ((List.range (max 1 w.numWorkers)).map fun i => (ds.map fun d => (d.reads w i).length).sum).sum w.numWorkers o.batchSize o.dropLast)) := by
  unfold valLen
  rw [lensOf_eq hr hds]
  simp only [batchStageLen, hg, Option.isSome_none, Bool.false_eq_true, if_false]
  rfl

theorem batchLen_shares (n nw bs : Nat) (dl : Bool) (hbs : 0 < bs) (h : dl = true ∨ n % max nw 1 = 0 ∨ bs = 1) :
    batchLen n nw bs dl = ((List.range (max 1 nw)).map fun i => nBatches (localShare n nw i) bs dl).sum := by
  rw [C27_batch_len_partial n nw bs dl hbs h, show max nw 1 = max 1 nw by omega, list_sum_range]

/-- When the announced number of batches is the number of batches of all workers. -/
theorem batchLen_workers {n : Nat} {N : Nat → Nat} {bs : Nat} {dl : Bool} (hbs : 0 < bs)
    (h : bs = 1 ∨ ((∀ i < max 1 n, ∀ j < max 1 n, N i ≤ N j + 1) ∧ (dl = true ∨ ((List.range (max 1 n)).map N).sum % max 1 n = 0))) :
    batchLen ((List.range (max 1 n)).map N).sum n bs dl = ((List.range (max 1 n)).map fun i => nBatches (N i) bs dl).sum := by
  rcases h with rfl | ⟨h1, h2⟩
  · have e : ∀ k, nBatches k 1 dl = k := by intro k; unfold nBatches; cases dl <;> simp
    rw [batchLen_shares _ _ _ _ hbs (.inr (.inr rfl))]
    simp only [e, sum_shares]
  · rw [batchLen_shares _ _ _ _ hbs (by rcases h2 with h2 | h2; exacts [.inl h2, .inr (.inl (by rw [show max n 1 = max 1 n by omega]; exact h2))]), batches_balanced h1 fun k => nBatches k bs dl]

/-- Taking part of each worker's batches. -/
theorem cut_sum {n L : Nat} (hL : 0 < L) {o : ValOpts} (ho : o.limit = some L) {m : Nat → Nat} (h : ∀ i < max 1 n, localShare L n i ≤ m i) :
    ((List.range (max 1 n)).map fun i => o.cutLen n i (m i)).sum = L ∧ L ≤ ((List.range (max 1 n)).map m).sum := by
  have e : (List.range (max 1 n)).map (fun i => o.cutLen n i (m i)) = (List.range (max 1 n)).map fun i => localShare L n i := by
    apply List.map_congr_left
    intro i hi
    have := h i (List.mem_range.1 hi)
    simp only [ValOpts.cutLen, ho, if_pos hL]
    omega
  refine ⟨by rw [e, sum_shares], ?_⟩
  calc L = ((List.range (max 1 n)).map fun i => localShare L n i).sum := (sum_shares L n).symm
    _ ≤ _ := List.sum_le_sum fun i hi => h i (List.mem_range.1 hi)

/-- **C105, validation.** The announced length of a validation loader is the number of batches of each loop (whatever the kind of loader, the number of worker processes and the schedule), if the functions skip nothing and multiply
nothing, without packing and grouping, and

- batches have one sample, or there is a single dataset (without `max_samples_per_sequence`) and the last batches are dropped, or the samples of the rank can be evenly distributed to its workers;
- there is no limit, or each worker has as many batches as its share of the limit.

Missing: everything else, where it is false: `C105_violated_last`, `C105_violated_datasets`, `C105_violated_limit`. -/
theorem C105_val_len_partial [DecidableEq K] (R : Nat → Rngs ρ) (E : Encoder C K) (ds : List (Disk B C)) (o : ValOpts) (w : Sharder.WorkerConfig)
    (hne : ds ≠ []) (hds : ∀ d ∈ ds, d.Val) (hr : w.rank < w.worldSize) (hb : 0 < o.batchSize)
    (load : Disk B C → Raw B → Option C) (hload : ∀ d ∈ ds, Computes d.load (load d)) (hall : ∀ d ∈ ds, ∀ x, (load d x).isSome)
    (F : Fns C K) (hE : E.Is F (some o.batchSize) o.packing) (hF : F.OneToOne) (hp : o.packing = none) (hg : E.group = none)
    (hc : o.batchSize = 1 ∨ ∃ d, ds = [d] ∧ d.maxSamples = none ∧ (o.dropLast = true ∨ ∃ n, d.lenOf w = .ok n ∧ n % max 1 w.numWorkers = 0))
    (hl : o.limit = none ∨ o.limit = some 0 ∨ ∃ L, o.limit = some L ∧ ∀ i < max 1 w.numWorkers, localShare L w.numWorkers i ≤ workerBatches ds o w i) :
    ∃ (n : Nat) (A : Nat → AnyDs C), valLen E ds o w = .ok n ∧ (∀ i < max 1 w.numWorkers, valDs (R i) E ds o w i = .ok (A i)) ∧
      (∀ (kind : Kind) (m : Nat), ∃ ls st, Loops w.numWorkers (rankDs kind w.numWorkers (fun _ => A) w.rank) ls st ∧ ls.length = m) ∧
      ∀ (kind : Kind) (ls : List (List (Smp C))) st, Loops w.numWorkers (rankDs kind w.numWorkers (fun _ => A) w.rank) ls st → ∀ k (hk : k < ls.length), ls[k].length = n := by
  obtain ⟨A, h1, h1', h2⟩ := C105_delivered R E ds o w hne hds hr hb load hload hall F hE hF hp hg
  refine ⟨_, A, valLen_eq E ds o w (fun d hd => (hds d hd).ok) hr hg, h1, h1', ?_⟩
  intro kind ls st hls k hk
  rw [h2 kind ls st hls k hk]
  have h3 : batchLen ((List.range (max 1 w.numWorkers)).map fun i => (ds.map fun d => (d.reads w i).length).sum).sum w.numWorkers o.batchSize o.dropLast =
      ((List.range (max 1 w.numWorkers)).map fun i => workerBatches ds o w i).sum := by
    refine batchLen_workers hb ?_
    rcases hc with hc | ⟨d, rfl, hm, hc⟩
    · exact .inl hc
    · refine .inr ⟨?_, ?_⟩
      · intro i hi j hj
        have hk := (hds d (by simp)).ok
        have key : ∀ i < max 1 w.numWorkers, (d.reads w i).length = (Sharder.reads (Sharder.shardWorkers d.shards w none 0) i).length := by
          intro i hi
          obtain ⟨ps, g1, _⟩ := Sharder.shardWorkers_succeeds d.shards hk.whole hk.nonempty (lt_of_le_of_lt hk.size (by norm_num)) w hr d.maxSamples 0
          rw [reads_length hk hr hi g1, ← samplesOf_length]
          rw [hm] at g1
          rw [g1]
          rfl
        have := Sharder.C02_workers_balanced d.shards hk.whole hk.nonempty (lt_of_le_of_lt hk.size (by norm_num)) w.worldSize w.numWorkers 0 w.rank w.rank i j hr hr hi hj
        simp only [List.map_cons, List.map_nil, List.sum_cons, List.sum_nil, Nat.add_zero]
        rw [key i hi, key j hj]
        exact this
      · rcases hc with hc | ⟨n, hc, hc'⟩
        · exact .inl hc
        · rw [lenOf_eq (hds d (by simp)).ok hr] at hc
          have hc := Except.ok.inj hc
          rw [← hc] at hc'
          rw [show w.workers = max 1 w.numWorkers from rfl] at hc'
          exact .inr (by simpa using hc')
  rw [h3]
  rcases hl with hl | hl | ⟨L, hl, hlim⟩
  · simp only [ValOpts.cutLen, limitLen, hl]
  · simp only [ValOpts.cutLen, limitLen, hl, Nat.lt_irrefl, if_false]
  · rcases Nat.eq_zero_or_pos L with h0 | h0
    · subst h0
      simp only [ValOpts.cutLen, limitLen, hl, Nat.lt_irrefl, if_false]
    · obtain ⟨h4, h5⟩ := cut_sum h0 hl hlim
      rw [h4]
      simp only [limitLen, hl, if_pos h0]
      exact (Nat.min_eq_left h5).symm

/-- **C105, training.** With virtual epochs the announced length of a training loader is the number of batches of each loop, for all task encoders. -/
theorem C105_train_len [DecidableEq K] (R : Nat → Rngs ρ) (E : Encoder C K) (ds : List (Disk B C)) (o : TrainOpts) (w : Sharder.WorkerConfig) (n : Nat) (hl : trainLen o = some n)
    (A0 : Nat → AnyDs C) (h0 : ∀ i < max 1 w.numWorkers, trainDs (R i) E ds { o with epochLength := 0 } w i = .ok (A0 i) ∧ (A0 i).D.Flows false) :
    ∃ A : Nat → AnyDs C, (∀ i < max 1 w.numWorkers, trainDs (R i) E ds o w i = .ok (A i)) ∧
      ∀ (kind : Kind) (ls : List (List (Smp C))) st, Loops w.numWorkers (rankDs kind w.numWorkers (fun _ => A) w.rank) ls st → ∀ k (hk : k < ls.length), ls[k].length = n := by
  have hpos : 0 < o.epochLength := by
    unfold trainLen at hl
    split at hl
    · assumption
    · cases hl
  unfold trainLen at hl
  rw [if_pos hpos] at hl
  cases hl
  obtain ⟨A, f, h1, h2⟩ := C104_virtual_epochs R E ds o w hpos A0 h0
  exact ⟨A, fun i hi => (h1 i hi).1, fun kind ls st hls k hk => ((h2 kind ls st hls).2 k hk).1⟩

/-! ### Where the announced length is wrong -/

/-- The functions of `exE`. -/
def exF : Fns Nat Nat := ⟨fun c => [c], fun c => [2 * c], fun l => [l], fun l => l, fun _ => none, fun _ => 2, fun l => some l.sum, fun c => [c]⟩

theorem exF_one : exF.OneToOne := ⟨fun _ => rfl, fun _ => rfl, fun _ => rfl, fun _ => rfl⟩

theorem exE_is (n : Nat) : exE.Is exF (some n) none :=
  ⟨fun _ => rfl, fun _ _ => rfl, (by intro _ h; cases h), (by intro _ h; cases h), fun _ _ => rfl, fun _ => rfl⟩

/-- The validation loader of rank 0 of `world` ranks over healthy datasets: its announced length is `n`, and each loop delivers `m` batches. -/
def Announces (ds : List (Disk Nat Nat)) (o : ValOpts) (world workers n m : Nat) : Prop :=
  (∀ d ∈ ds, d.Val ∧ d.maxSamples = none) ∧ valLen exE ds o ⟨0, world, workers⟩ = .ok n ∧
  ∃ A : Nat → AnyDs Nat, (∀ i < max 1 workers, valDs exR exE ds o ⟨0, world, workers⟩ i = .ok (A i)) ∧
    (∀ (kind : Kind) (m : Nat), ∃ ls st, Loops workers (rankDs kind workers (fun _ => A) 0) ls st ∧ ls.length = m) ∧
    ∀ (kind : Kind) (ls : List (List (Smp Nat))) st, Loops workers (rankDs kind workers (fun _ => A) 0) ls st → ∀ k (hk : k < ls.length), ls[k].length = m

theorem announces {ds : List (Disk Nat Nat)} {o : ValOpts} {world workers n m : Nat} (hds : ∀ d ∈ ds, d.Val ∧ d.maxSamples = none ∧ Computes d.load (fun r => some (r.parts.map (·.2)).sum))
    (hne : ds ≠ []) (hw : 0 < world) (hb : 0 < o.batchSize) (hp : o.packing = none) (hn : valLen exE ds o ⟨0, world, workers⟩ = .ok n)
    (hm : ((List.range (max 1 workers)).map fun i => o.cutLen workers i (workerBatches ds o ⟨0, world, workers⟩ i)).sum = m) : Announces ds o world workers n m := by
  obtain ⟨A, h1, h2, h3⟩ := C105_delivered (fun _ => exR) exE ds o ⟨0, world, workers⟩ hne (fun d hd => (hds d hd).1) hw hb _ (fun d hd => (hds d hd).2.2) (fun _ _ _ => rfl) exF
    (by rw [hp]; exact exE_is _) exF_one hp rfl
  exact ⟨fun d hd => ⟨(hds d hd).1, (hds d hd).2.1⟩, hn, A, h1, h2, fun kind ls st hls k hk => (h3 kind ls st hls k hk).trans hm⟩

theorem exOne {name : String} {first n : Nat} (h : n ≤ 2 ^ 48) (hc : (groups (entries (exTarN first n))).length = n) :
    (exDisk name first n).Val ∧ (exDisk name first n).maxSamples = none ∧ Computes (exDisk name first n).load (fun r => some (r.parts.map (·.2)).sum) :=
  ⟨exDisk_val _ _ _ h hc, rfl, fun _ _ => rfl⟩

/-- The announced length, if there is one. -/
def lenIs (x : Except BErr Nat) (n : Nat) : Bool :=
  match x with
  | .ok m => m == n
  | .error _ => false

theorem lenIs_ok {x : Except BErr Nat} {n : Nat} (h : lenIs x n = true) : x = .ok n := by
  unfold lenIs at h
  split at h
  · rw [eq_of_beq h]
  · cases h

/-- **C105 is violated** if the last batches are not dropped and the samples cannot be evenly distributed: three samples, two workers, batches of two. The loader announces three batches and delivers two. -/
theorem C105_violated_last : Announces [exDisk "a" 10 3] ⟨2, false, none, none, false⟩ 1 2 3 2 := by
  refine announces ?_ (by simp) (by decide) (by decide) rfl (lenIs_ok (by decide +kernel)) (by decide +kernel)
  intro d hd
  rw [List.mem_singleton.1 hd]
  exact exOne (by decide) (by decide +kernel)

/-- **C105 is violated** with several datasets: the first worker gets the first sample of each. The loader announces no batch and delivers one. -/
theorem C105_violated_datasets : Announces [exDisk "a" 10 1, exDisk "b" 100 1] ⟨2, true, none, none, false⟩ 1 2 0 1 := by
  refine announces ?_ (by simp) (by decide) (by decide) rfl (lenIs_ok (by decide +kernel)) (by decide +kernel)
  intro d hd
  simp only [List.mem_cons, List.not_mem_nil, or_false] at hd
  rcases hd with rfl | rfl <;> exact exOne (by decide) (by decide +kernel)

/-- **C105 is violated** with a limit: 13 samples for nine workers of three ranks, batches of one sample. The workers of the first rank have 2, 1 and 2 batches; the limit of five batches is split into 2, 2 and 1. The loader announces
five batches and delivers four. -/
theorem C105_violated_limit : Announces [exDisk "a" 10 13] ⟨1, false, none, some 5, false⟩ 3 3 5 4 := by
  refine announces ?_ (by simp) (by decide) (by decide) rfl (lenIs_ok (by decide +kernel)) (by decide +kernel)
  intro d hd
  rw [List.mem_singleton.1 hd]
  exact exOne (by decide) (by decide +kernel)

/-- An example: 13 samples for nine workers of three ranks, batches of two samples, the last dropped. -/
example : valLen exE [exDisk "a" 10 13] ⟨2, true, none, some 2, false⟩ ⟨0, 3, 3⟩ = .ok 2 := lenIs_ok (by decide +kernel)

example := C105_val_len_partial (fun _ => exR) exE [exDisk "a" 10 13] ⟨2, true, none, none, false⟩ ⟨0, 3, 3⟩ (by simp)
  (by intro d hd; rw [List.mem_singleton.1 hd]; exact (exOne (by decide) (by decide +kernel)).1) (by decide) (by decide) (fun _ r => some (r.parts.map (·.2)).sum)
  (by intro d hd; rw [List.mem_singleton.1 hd]; exact fun _ _ => rfl) (fun _ _ _ => rfl) exF (exE_is 2) exF_one rfl rfl (.inr ⟨_, rfl, rfl, .inl rfl⟩) (.inl rfl)

/-- With a limit. -/
example := C105_val_len_partial (fun _ => exR) exE [exDisk "a" 10 13] ⟨1, false, none, some 3, false⟩ ⟨0, 3, 3⟩ (by simp)
  (by intro d hd; rw [List.mem_singleton.1 hd]; exact (exOne (by decide) (by decide +kernel)).1) (by decide) (by decide) (fun _ r => some (r.parts.map (·.2)).sum)
  (by intro d hd; rw [List.mem_singleton.1 hd]; exact fun _ _ => rfl) (fun _ _ _ => rfl) exF (exE_is 1) exF_one rfl rfl (.inl rfl) (.inr (.inr ⟨3, rfl, by decide +kernel⟩))

end Verif.Pipeline
