import Verif.Pipeline.TrainEpochs
import Verif.Sharder.Props

/-!
# C109: the same global batches with another number of ranks

docs/source/repro_scaling.md: a training run can be repeated with another number of ranks if `world_size * num_workers`, the global batch size and the seeds stay the same.
-/

namespace Verif.Pipeline

open Verif.Stream Verif.Loader

variable {B C K ρ : Type} {σ κ : Type}

/-! ### Model -/

/-- worker.py:104-112 `active_worker_sample_index`, which is `TaskEncoder.current_sample_index` (task_encoder/base.py:613-624): what a user function that is called for the `k`-th time in worker `i` of a rank with
`nw` workers sees. -/
def visible (nw i k : Nat) : Nat := k * max nw 1 + i

/-- worker.py:202-222: the number from which (with `seed_offset`) the seed of all random generators in worker `i` of a rank is computed. -/
def seedId (w : Sharder.WorkerConfig) (i : Nat) : Nat := if w.numWorkers = 0 then w.rank else w.rank * w.numWorkers + i

/-- The training dataset in worker `i` of a rank. `gens s`: the random generators after seeding with number `s`. `E s v`: the functions of the user, as seen in a worker with seed number `s` in which `v` gives
the `current_sample_index` from the number of previous calls. Everything else is the same in all workers. -/
def workerDs [DecidableEq K] (gens : Nat → Rngs ρ) (E : Nat → (Nat → Nat) → Encoder C K) (ds : List (Disk B C)) (o : TrainOpts) (w : Sharder.WorkerConfig) (i : Nat) : Except BErr (AnyDs C) :=
  trainDs (gens (seedId w i)) (E (seedId w i) (visible w.numWorkers i)) ds o w i

/-- What the training loop of one rank has got from a new loader with `n` worker processes (whose workers iterate over `D 0, ..., D (n-1)`, see `Verif.Loader.TorchModel`); without worker processes the loop
iterates over `D 0` itself. -/
inductive Delivered (n : Nat) (D : Nat → AnyDs C) : List (Smp C) → Prop where
  | single {l : List (Smp C)} {s : (D 0).σ} : n = 0 → (D 0).D.Items (D 0).D.init l s → Delivered n D l
  | workers {x : Nat → Nat → Smp C} {s : Sys (Smp C)} : 0 < n → (∀ i < n, Loader.Stream (D i).D (x i)) → Reach n (fun i k => some (x i k)) s → Delivered n D (s.hist.map Prod.snd)

/-- What the training code of one rank has got: with virtual epochs of length `L` it makes loop after loop over the loader, without virtual epochs (`L = 0`) there is one endless loop. -/
def Received (L n : Nat) (D : Nat → AnyDs C) (l : List (Smp C)) : Prop :=
  if L = 0 then Delivered n D l else ∃ ls st, Loops n D ls st ∧ l = ls.flatten

/-! ### Specification -/

/-- The micro-batches that a rank with `a` gradient accumulation steps uses in training step `t`. -/
def step (a t : Nat) (l : List (Smp C)) : List C := ((l.drop (t * a)).take a).map (·.content)

/-- The global batch of training step `t`: the micro-batches of all `W` ranks. -/
def globalBatch (W a t : Nat) (l : Nat → List (Smp C)) : List C := (List.range W).flatMap fun r => step a t (l r)

/-- Whose turn it is when a rank with `n` workers gets batch `q`, and which of its batches the worker delivers, with virtual epochs of length `L` (`0`: none): each epoch starts with the first worker, in which
worker `i` delivers one batch more if `i < L % n`. -/
def turn (L n q : Nat) : Nat × Nat :=
  if L = 0 then (q % n, q / n) else (q % L % n, (q / L) * (L / n + if q % L % n < L % n then 1 else 0) + q % L / n)

/-! ### The datasets of the workers -/

theorem seedId_eq (w : Sharder.WorkerConfig) (i : Nat) (hi : i < max 1 w.numWorkers) : seedId w i = w.rank * max 1 w.numWorkers + i := by
  unfold seedId
  split
  · rename_i h
    rw [h] at hi ⊢
    simp at hi ⊢
    omega
  · rw [show max 1 w.numWorkers = w.numWorkers by omega]

section
variable {w₁ w₂ : Sharder.WorkerConfig} {i₁ i₂ : Nat}

/-- Two workers, in runs with the same number of workers in total, with the same number. -/
structure SameWorker (w₁ w₂ : Sharder.WorkerConfig) (i₁ i₂ : Nat) : Prop where
  rank₁ : w₁.rank < w₁.worldSize
  rank₂ : w₂.rank < w₂.worldSize
  total : max 1 w₁.numWorkers * w₁.worldSize = max 1 w₂.numWorkers * w₂.worldSize
  lt₁ : i₁ < max 1 w₁.numWorkers
  lt₂ : i₂ < max 1 w₂.numWorkers
  same : w₁.rank * max 1 w₁.numWorkers + i₁ = w₂.rank * max 1 w₂.numWorkers + i₂

theorem slicesFor_same {d : Disk B C} (hd : d.Ok) (h : SameWorker w₁ w₂ i₁ i₂) (rot : Nat) : slicesFor d w₁ rot i₁ = slicesFor d w₂ rot i₂ := by
  obtain ⟨ps₁, ps₂, sl, h1, h2, h3, h4⟩ := Sharder.C03_only_global_index_matters d.shards hd.whole hd.nonempty (Nat.lt_of_le_of_lt hd.size (by decide)) d.maxSamples rot w₁ w₂ h.rank₁ h.rank₂ h.total i₁ i₂
    h.lt₁ h.lt₂ h.same
  unfold slicesFor
  rw [h1, h2]
  dsimp only
  rw [List.getD_eq_getElem?_getD, List.getD_eq_getElem?_getD, h3, h4]

theorem buildPart_same {d : Disk B C} (hd : d.Ok) (h : SameWorker w₁ w₂ i₁ i₂) (R : Wds.WRng ρ) (tr : Bool) (rot : Nat) : buildPart R d tr w₁ rot i₁ = buildPart R d tr w₂ rot i₂ := by
  unfold buildPart
  rw [slicesFor_same hd h]

theorem buildParts_same (h : SameWorker w₁ w₂ i₁ i₂) (R : Rngs ρ) (tr : Bool) (l : List (Disk B C × Nat)) (hl : ∀ p ∈ l, p.1.Ok) (j : Nat) : buildParts R tr w₁ i₁ j l = buildParts R tr w₂ i₂ j l := by
  induction l generalizing j with
  | nil => rfl
  | cons p l ih =>
    obtain ⟨d, rot⟩ := p
    unfold buildParts
    rw [buildPart_same (hl _ (List.mem_cons_self ..)) h, ih (fun p hp => hl p (List.mem_cons_of_mem _ hp))]

theorem trainSource_same (h : SameWorker w₁ w₂ i₁ i₂) (R : Rngs ρ) (ds : List (Disk B C)) (hds : ∀ d ∈ ds, d.Ok) : trainSource R ds w₁ i₁ = trainSource R ds w₂ i₂ := by
  match ds, hds with
  | [], _ => rfl
  | [d], hds =>
    unfold trainSource
    dsimp only
    rw [buildPart_same (hds d (by simp)) h]
  | d :: d' :: l, hds =>
    unfold trainSource
    dsimp only
    have hg : w₁.globalWorkers = w₂.globalWorkers := h.total
    rw [hg, buildParts_same h R true _ (fun p hp => hds _ (List.of_mem_zip hp).1)]

end

/-- **C109, datasets.** Two workers with the same number (in runs with the same number of workers in total) iterate over the same dataset, if no function of the user looks at `current_sample_index`. -/
theorem C109_same_dataset [DecidableEq K] (gens : Nat → Rngs ρ) (E : Nat → (Nat → Nat) → Encoder C K) (hE : ∀ s v v', E s v = E s v') (ds : List (Disk B C)) (hds : ∀ d ∈ ds, d.Ok) (o : TrainOpts)
    (ho : o.epochLength = 0) (w₁ w₂ : Sharder.WorkerConfig) (i₁ i₂ : Nat) (h : SameWorker w₁ w₂ i₁ i₂) :
    workerDs gens E ds o w₁ i₁ = workerDs gens E ds o w₂ i₂ := by
  have hs : seedId w₁ i₁ = seedId w₂ i₂ := by rw [seedId_eq _ _ h.lt₁, seedId_eq _ _ h.lt₂, h.same]
  unfold workerDs
  rw [hs, hE _ (visible w₁.numWorkers i₁) (visible w₂.numWorkers i₂)]
  unfold trainDs
  rw [trainSource_same h _ ds hds, ho]
  rfl

/-! ### The loaders -/

theorem Endless.gc {D : Dataset σ (Smp C) κ} {f : Nat → Smp C} {st : Nat → σ} (h : Endless D f st) : Endless (gcD D) f (fun j => (st j, ⟨j, .loop⟩)) := by
  refine ⟨?_, fun j => ?_⟩
  · show (st 0, _) = (D.init, _)
    rw [h.1]
    rfl
  · exact obs_pull_item (src := Source.single D) (i := ()) rfl (h.2 j) (.item rfl)

/-- The samples with what the loader puts in front of their restore keys. -/
def labelled (t : String) (gid : Nat) (f : Nat → Smp C) (j : Nat) : Smp C := ⟨(f j).content, .str t :: .num gid :: .num j :: (f j).key⟩

theorem Endless.plain {D : Dataset σ (Smp C) κ} {f : Nat → Smp C} {st : Nat → σ} (h : Endless D f st) (gid : Nat) :
    Endless (plainD D gid) (labelled "SimpleSavableDatasetWrapper" gid f) (fun j => (st j, ⟨j, .loop⟩)) := by
  refine ⟨?_, fun j => ?_⟩
  · show (st 0, _) = (D.init, _)
    rw [h.1]
    rfl
  · exact obs_pull_item (src := Source.single D) (i := ()) rfl (h.2 j) (.item rfl)

theorem Endless.savable {D : Dataset σ (Smp C) κ} {f : Nat → Smp C} {st : Nat → σ} (h : Endless D f st) (cfg : Loader.Cfg) (gid : Nat) :
    ∃ st', Endless (savableD D cfg gid) (labelled "SavableDatasetWrapper" gid f) st' := by
  have hstep : ∀ k (x : { x : WAttr κ // (∃ a b, x.ctl = .run a b) ∧ x.skip = 0 ∧ x.idx = k }), ∃ x' : { x : WAttr κ // (∃ a b, x.ctl = .run a b) ∧ x.skip = 0 ∧ x.idx = k + 1 },
      Obs (savableD D cfg gid).step (st k, x.1) (.item (labelled "SavableDatasetWrapper" gid f k) (st (k + 1), x'.1)) := by
    rintro k ⟨x, ⟨a, b, h1⟩, h2, h3⟩
    obtain ⟨x', h4, h5, h6, h7⟩ := savable_item (cfg := cfg) (gid := gid) h1 h2 (h.2 k)
    rw [h3] at h4 h7
    exact ⟨⟨x', ⟨_, _, h5⟩, h6, h7⟩, h4⟩
  choose g hg using hstep
  let X : (k : Nat) → { x : WAttr κ // (∃ a b, x.ctl = .run a b) ∧ x.skip = 0 ∧ x.idx = k } :=
    Nat.rec ⟨{ (wfresh D).2 with ctl := .run true false }, ⟨_, _, rfl⟩, rfl, rfl⟩ fun k x => g k x
  refine ⟨fun k => if k = 0 then wfresh D else (st k, (X k).1), rfl, fun k => ?_⟩
  have h1 := hg k (X k)
  cases k with
  | zero =>
    refine .skip (s' := (st 0, (X 0).1)) ?_ h1
    rw [h.1]
    rfl
  | succ k => exact h1

theorem loaderDs_endless (kind : Kind) (n : Nat) {A : AnyDs C} {f : Nat → Smp C} {st : Nat → A.σ} (h : Endless A.D f st) (i gid : Nat) :
    ∃ t st', Endless (loaderDs kind n A i gid).D (labelled t gid f) st' := by
  cases kind with
  | basic => exact ⟨_, _, h.gc.gc.plain gid⟩
  | savable cfg =>
    by_cases hn : n = 0
    · have e : loaderDs (.savable cfg) n A i gid = ⟨_, _, plainD (gcD A.D) gid⟩ := if_pos hn
      rw [e]
      exact ⟨_, _, h.gc.plain gid⟩
    · have e : loaderDs (.savable cfg) n A i gid = ⟨_, _, savableD (gcD A.D) (cfg i) gid⟩ := if_neg hn
      rw [e]
      exact ⟨_, h.gc.savable (cfg i) gid⟩

theorem Endless.items {D : Dataset σ (Smp C) κ} {f : Nat → Smp C} {st : Nat → σ} (h : Endless D f st) (l : List (Smp C)) (k : Nat) {s : σ} (hl : D.Items (st k) l s) :
    ∀ q (hq : q < l.length), l[q] = f (k + q) := by
  induction l generalizing k with
  | nil => intro q hq; cases hq
  | cons a l ih =>
    unfold Dataset.Items at hl
    rw [List.map_cons] at hl
    cases hl with
    | item ho hr =>
      have := Obs.det ho (h.2 k)
      cases this
      intro q hq
      cases q with
      | zero => rfl
      | succ q =>
        rw [List.getElem_cons_succ, ih (k + 1) hr q (by simpa using hq)]
        congr 1
        omega

theorem Endless.unique {D : Dataset σ (Smp C) κ} {f x : Nat → Smp C} {st : Nat → σ} (h : Endless D f st) (hx : Loader.Stream D x) (k : Nat) : x k = f k := by
  obtain ⟨st', h0, h1⟩ := hx (k + 1)
  have key : ∀ j ≤ k + 1, st' j = st j := by
    intro j
    induction j with
    | zero => intro _; rw [h0, h.1]
    | succ j ih =>
      intro hj
      have h2 := h1 j (by omega)
      rw [ih (by omega)] at h2
      have := Obs.det h2 (h.2 j)
      simp only [Out.item.injEq] at this
      exact this.2
  have h2 := h1 k (by omega)
  rw [key k (by omega)] at h2
  have := Obs.det h2 (h.2 k)
  simp only [Out.item.injEq] at this
  exact this.1

theorem upto_some {α : Type} (n : Nat) (x : Nat → Nat → α) (low : Nat) : (upto n (fun i k => some (x i k)) low).map Prod.snd = (List.range low).map fun q => x (q % n) (q / n) := by
  unfold upto
  simp only [Option.map_some]
  rw [show (fun q => some (q % n, x (q % n) (q / n))) = some ∘ (fun q => (q % n, x (q % n) (q / n))) from rfl, List.filterMap_eq_map, List.map_map]
  rfl

/-- A rank gets the batches of its workers in turns. -/
theorem delivered_eq {n : Nat} {D : Nat → AnyDs C} {f : Nat → Nat → Smp C} (h : ∀ i < max 1 n, ∃ st, Endless (D i).D (f i) st) {l : List (Smp C)} (hl : Delivered n D l) (q : Nat) (hq : q < l.length) :
    l[q] = f (q % max 1 n) (q / max 1 n) := by
  cases hl with
  | single hn hl =>
    obtain ⟨st, h⟩ := h 0 (by omega)
    rw [← h.1] at hl
    rw [h.items l 0 hl q hq, hn]
    simp [Nat.mod_one]
  | @workers x s hn hx hs =>
    obtain ⟨N, hN⟩ := C35_round_robin hn (by intro w k h; cases h) hs
    rw [← upto_rounds] at hN
    have h1 : s.hist.map Prod.snd <+: (List.range (N * n)).map fun q => x (q % n) (q / n) := by
      rw [← upto_some]
      exact hN.map _
    have h2 := h1.getElem hq
    rw [h2, List.getElem_map, List.getElem_range, show max 1 n = n by omega]
    obtain ⟨st, h⟩ := h (q % n) (by have := Nat.mod_lt q hn; omega)
    exact h.unique (hx _ (Nat.mod_lt q hn)) _

section
variable {α : Type} {n : Nat} {x : Nat → Nat → α}

theorem step_hist {out : Nat → Nat → Option α} {s s' : Sys α} (h : Loader.Step n out s s') (hb : s.phase = .busy) :
    (s'.phase = .busy → s'.hist = s.hist) ∧ (s'.phase = .idle → s'.hist.length = s.hist.length + 1) := by
  have ht : ∀ t : Sys α, (tryPut n t).phase = t.phase ∧ (tryPut n t).hist = t.hist := fun t => ⟨(tryPut_results t).2.2.1, (tryPut_results t).2.2.2⟩
  cases h with
  | work => exact ⟨fun _ => rfl, fun h => by rw [hb] at h; cases h⟩
  | discard => exact ⟨fun _ => rfl, fun h => by rw [hb] at h; cases h⟩
  | call h => rw [hb] at h; cases h
  | drop => exact ⟨fun _ => rfl, fun h => by rw [hb] at h; cases h⟩
  | finish => exact ⟨fun h => (by cases h), fun h => (by cases h)⟩
  | «have» => exact ⟨fun h => (by unfold deliver at h; rw [(ht _).1] at h; cases h), fun _ => (by unfold deliver; rw [(ht _).2]; simp)⟩
  | recvStop => exact ⟨fun _ => (ht _).2, fun h => by rw [(ht _).1] at h; rw [hb] at h; cases h⟩
  | recvNow => exact ⟨fun h => (by unfold deliver at h; rw [(ht _).1] at h; cases h), fun _ => (by unfold deliver; rw [(ht _).2]; simp)⟩
  | recvLater => exact ⟨fun _ => rfl, fun h => by rw [hb] at h; cases h⟩

theorem never_finished (hn : 0 < n) {s : Sys α} (h : Reach n (fun i k => some (x i k)) s) : s.phase ≠ .finished := by
  intro hf
  obtain ⟨K, h1, _⟩ := C35_complete hn (by intro w k h; cases h) h hf
  cases h1 0 hn

theorem reach_next (hn : 0 < n) (N : Nat) : ∀ s : Sys α, Loader.work n s ≤ N → Reach n (fun i k => some (x i k)) s → s.phase = .busy →
    ∃ t, Reach n (fun i k => some (x i k)) t ∧ t.phase = .idle ∧ t.hist.length = s.hist.length + 1 := by
  have hst : Sticky fun i k => some (x i k) := by intro w k h; cases h
  induction N with
  | zero =>
    intro s hw hr hb
    obtain ⟨s', h1⟩ := C35_progress hn hst hr hb
    have h2 := step_hist h1 hb
    cases hp : s'.phase with
    | idle => exact ⟨s', .step hr h1, hp, h2.2 hp⟩
    | busy => have := work_decreases hn hst hr h1 hb hp; omega
    | finished => exact absurd hp (never_finished hn (.step hr h1))
  | succ N ih =>
    intro s hw hr hb
    obtain ⟨s', h1⟩ := C35_progress hn hst hr hb
    have h2 := step_hist h1 hb
    cases hp : s'.phase with
    | idle => exact ⟨s', .step hr h1, hp, h2.2 hp⟩
    | busy =>
      have := work_decreases hn hst hr h1 hb hp
      obtain ⟨t, h3, h4, h5⟩ := ih s' (by omega) (.step hr h1) hp
      exact ⟨t, h3, h4, by rw [h5, h2.1 hp]⟩
    | finished => exact absurd hp (never_finished hn (.step hr h1))

theorem reach_long (hn : 0 < n) (N : Nat) : ∃ s, Reach n (fun i k => some (x i k)) s ∧ s.phase = .idle ∧ s.hist.length = N := by
  induction N with
  | zero =>
    have key : ∀ k (s : Sys α), (tryPuts n k s).phase = s.phase ∧ (tryPuts n k s).hist = s.hist := by
      intro k
      induction k with
      | zero => intro s; exact ⟨rfl, rfl⟩
      | succ k ih => intro s; exact ⟨(ih _).1.trans (tryPut_results s).2.2.1, (ih _).2.trans (tryPut_results s).2.2.2⟩
    exact ⟨_, .start, (key _ _).1, by unfold start; rw [(key _ _).2]; rfl⟩
  | succ N ih =>
    obtain ⟨s, h1, h2, h3⟩ := ih
    obtain ⟨t, h4, h5, h6⟩ := reach_next hn _ _ (Nat.le_refl _) (.step h1 (.call h2)) rfl
    exact ⟨t, h4, h5, by rw [h6]; exact congrArg (· + 1) h3⟩

end

/-- A rank can get any number of batches. -/
theorem delivered_any {n : Nat} {D : Nat → AnyDs C} {f : Nat → Nat → Smp C} (h : ∀ i < max 1 n, ∃ st, Endless (D i).D (f i) st) (N : Nat) : ∃ l, Delivered n D l ∧ l.length = N := by
  rcases Nat.eq_zero_or_pos n with hn | hn
  · obtain ⟨st, h⟩ := h 0 (by omega)
    refine ⟨(List.range N).map (f 0), .single (s := st N) hn ?_, by simp⟩
    rw [← h.1]
    induction N with
    | zero => exact .nil
    | succ N ih =>
      unfold Dataset.Items at *
      rw [List.range_succ, List.map_append, List.map_append]
      exact ih.append (.item (h.2 N) .nil)
  · obtain ⟨s, h1, _, h3⟩ := reach_long (x := f) hn N
    exact ⟨_, .workers hn (fun i hi => by obtain ⟨st, h⟩ := h i (by omega); exact h.stream) h1, by simpa using h3⟩

/-- Loops over a loader whose workers cut their sequences into epochs. -/
theorem loops_epochs {n r L : Nat} {A : Nat → AnyDs C} {f : Nat → Nat → Smp C} (h : ∀ i < max 1 n, Passes (A i).D (epochOf (f i) (localShare L n i))) {kind : Kind} {ls : List (List (Smp C))}
    {st : (w : Nat) → (rankDs kind n (fun _ => A) r w).σ} (hls : Loops n (rankDs kind n (fun _ => A) r) ls st) (k : Nat) (hk : k < ls.length) :
    ls[k].length = L ∧ ls[k].map (·.content) = (List.range L).map fun p => (f (p % max 1 n) (k * localShare L n (p % max 1 n) + p / max 1 n)).content := by
  have hlen : ∀ i, (epochOf (f i) (localShare L n i) k).length = localShare L n i := by simp [epochOf]
  obtain ⟨h1, h2⟩ := C79_loop_order (A := fun _ => A) h hls k hk
  constructor
  · rw [loops_length (A := fun _ => A) h hls k hk]
    simp only [hlen]
    exact sum_shares _ _
  · rcases Nat.eq_zero_or_pos n with hn | hn
    · rw [h1 hn, hn]
      simp [epochOf, localShare, Nat.mod_one, Function.comp_def]
    · obtain ⟨N, h3, h4⟩ := h2 hn
      simp only [hlen] at h3
      rw [h4, show max 1 n = n by omega]
      have := rounds_shares hn h3 fun i j => (f i (k * localShare L n i + j)).content
      simp only [epochOf, List.map_map, Function.comp_def]
      exact this

theorem localShare_dvd {n L i : Nat} (h : max 1 n ∣ L) : localShare L n i = L / max 1 n := by
  unfold localShare
  split
  · rw [show max 1 n = 1 by omega, Nat.div_one]
  · rw [show max 1 n = n by omega] at h ⊢
    rw [Nat.mod_eq_zero_of_dvd h]
    simp

theorem flatten_parts {α : Type} {L : Nat} {g : Nat → α} (ls : List (List α)) (k : Nat) (h : ∀ j (hj : j < ls.length), ls[j] = (List.range L).map fun p => g ((k + j) * L + p)) :
    ls.flatten = (List.range (ls.length * L)).map fun q => g (k * L + q) := by
  induction ls generalizing k with
  | nil => simp
  | cons l ls ih =>
    have h0 := h 0 (by simp)
    rw [List.getElem_cons_zero, Nat.add_zero] at h0
    have e : (ls.length + 1) * L = L + ls.length * L := by rw [Nat.succ_mul, Nat.add_comm]
    rw [List.flatten_cons, h0, ih (k + 1), List.length_cons, e, List.range_add, List.map_append, List.map_map]
    · congr 1
      refine List.map_congr_left fun q _ => ?_
      dsimp only [Function.comp_apply]
      congr 1
      rw [Nat.succ_mul]
      omega
    · intro j hj
      have := h (j + 1) (by simpa using hj)
      rw [List.getElem_cons_succ] at this
      rw [this]
      refine List.map_congr_left fun q _ => ?_
      congr 2
      rw [Nat.add_assoc, Nat.add_comm 1]

theorem localShare_max (L n i : Nat) (hi : i < max 1 n) : localShare L n i = L / max 1 n + if i < L % max 1 n then 1 else 0 := by
  unfold localShare
  split
  · rename_i h
    rw [show max 1 n = 1 by omega, Nat.div_one, Nat.mod_one]
    simp
  · rw [show max 1 n = n by omega]

theorem turn_epoch (L n k p : Nat) (hp : p < L) : turn L n (k * L + p) = (p % n, k * (L / n + if p % n < L % n then 1 else 0) + p / n) := by
  have h0 : 0 < L := by omega
  unfold turn
  rw [if_neg (by omega), Nat.mul_comm k L, Nat.mul_add_mod, Nat.mod_eq_of_lt hp, Nat.mul_add_div h0, Nat.div_eq_of_lt hp, Nat.add_zero]

theorem turn_dvd (L n q : Nat) (hn : 0 < n) (h : n ∣ L) : turn L n q = (q % n, q / n) := by
  by_cases hL : L = 0
  · unfold turn
    rw [if_pos hL]
  · obtain ⟨c, hc⟩ := h
    have h0 : 0 < L := by omega
    have e : q = q / L * L + q % L := by rw [Nat.mul_comm]; exact (Nat.div_add_mod q L).symm
    have e2 : q / L * L + q % L = q % L + n * (q / L * c) := by rw [hc, ← Nat.mul_assoc, ← Nat.mul_assoc, Nat.mul_comm n (q / (n * c))]; omega
    have e3 : L % n = 0 := by rw [hc]; exact Nat.mul_mod_right _ _
    have e4 : L / n = c := by rw [hc]; exact Nat.mul_div_cancel_left _ hn
    have h1 := turn_epoch L n (q / L) (q % L) (Nat.mod_lt _ h0)
    rw [← e, e3, e4] at h1
    rw [h1]
    simp only [Nat.not_lt_zero, if_false, Nat.add_zero]
    conv_rhs => rw [e, e2, Nat.add_mul_mod_self_left, Nat.add_mul_div_left _ _ hn, Nat.add_comm (q % L / n)]

/-- **C109, one rank, any length of epochs.** Take a training run with `T` workers in total in which (without virtual epochs) `next` always returns a batch, and no function of the user looks at `current_sample_index`.
There are `T` sequences of batches (sequence `g` is what the only worker of rank `g` delivers if there are `T` ranks) such that for each way to distribute the workers, `W` ranks with `n` workers each, rank `r` gets
the sequences `r*n, ..., r*n+n-1` in turns, each from its beginning and without gaps, from either kind of loader, whatever the schedule is; and it can get any number of batches. With virtual epochs each epoch starts with the first worker. -/
theorem C109_rank [DecidableEq K] (gens : Nat → Rngs ρ) (E : Nat → (Nat → Nat) → Encoder C K) (hE : ∀ s v v', E s v = E s v') (ds : List (Disk B C)) (hds : ∀ d ∈ ds, d.Ok) (o : TrainOpts)
    (T : Nat) (h0 : 0 < T) (hT : ∀ g < T, ∃ A, workerDs gens E ds { o with epochLength := 0 } ⟨g, T, 1⟩ 0 = .ok A ∧ A.D.Flows false) :
    ∃ f : Nat → Nat → Smp C, (∀ g < T, ∀ A, workerDs gens E ds { o with epochLength := 0 } ⟨g, T, 1⟩ 0 = .ok A → Loader.Stream A.D (f g)) ∧
      ∀ W n L, W * max 1 n = T → ∀ r < W, (∀ i < max 1 n, ∃ A, workerDs gens E ds { o with epochLength := L } ⟨r, W, n⟩ i = .ok A) ∧
      ∀ A : Nat → AnyDs C, (∀ i < max 1 n, workerDs gens E ds { o with epochLength := L } ⟨r, W, n⟩ i = .ok (A i)) →
        ∀ kind, (∀ N, ∃ l, Received L n (rankDs kind n (fun _ => A) r) l ∧ N ≤ l.length) ∧
          ∀ l, Received L n (rankDs kind n (fun _ => A) r) l → ∀ q (hq : q < l.length), l[q].content = (f (r * max 1 n + (turn L (max 1 n) q).1) (turn L (max 1 n) q).2).content := by
  have h : ∀ g, ∃ (A : AnyDs C) (f : Nat → Smp C) (st : Nat → A.σ), g < T → workerDs gens E ds { o with epochLength := 0 } ⟨g, T, 1⟩ 0 = .ok A ∧ Endless A.D f st ∧ A.D.Flows false := by
    intro g
    by_cases hg : g < T
    · obtain ⟨A, h1, h2⟩ := hT g hg
      obtain ⟨f, st, h3⟩ := endless_of_flows h2
      exact ⟨A, f, st, fun _ => ⟨h1, h3, h2⟩⟩
    · obtain ⟨A, h1, h2⟩ := hT 0 h0
      obtain ⟨f, st, h3⟩ := endless_of_flows h2
      exact ⟨A, f, st, fun h => absurd h hg⟩
  choose A f st hf using h
  refine ⟨f, fun g hg A' hA' => ?_, fun W n L hW r hr => ?_⟩
  · rw [← Except.ok.inj ((hf g hg).1.symm.trans hA')]
    exact (hf g hg).2.1.stream
  have hn : 0 < max 1 n := by omega
  have hlt : ∀ i < max 1 n, r * max 1 n + i < T := by
    intro i hi
    have := Nat.mul_le_mul_right (max 1 n) hr
    rw [Nat.succ_mul] at this
    omega
  have hA : ∀ i < max 1 n, workerDs gens E ds { o with epochLength := 0 } ⟨r, W, n⟩ i = .ok (A (r * max 1 n + i)) := by
    intro i hi
    rw [← (hf _ (hlt i hi)).1]
    refine C109_same_dataset gens E hE ds hds _ rfl _ _ _ _ ⟨hr, hlt i hi, ?_, hi, by simp, by simp⟩
    simp [← hW, Nat.mul_comm]
  by_cases hL : L = 0
  · subst hL
    refine ⟨fun i hi => ⟨_, hA i hi⟩, fun A' hA' kind => ?_⟩
    have hA'' : ∀ i < max 1 n, ∃ st, Endless (A' i).D (f (r * max 1 n + i)) st := by
      intro i hi
      have e := (hA i hi).symm.trans (hA' i hi)
      rw [← Except.ok.inj e]
      exact ⟨_, (hf _ (hlt i hi)).2.1⟩
    have h1 : ∀ i, ∃ t, i < max 1 n → ∃ st', Endless (rankDs kind n (fun _ => A') r i).D (labelled t (globalId n r i) (f (r * max 1 n + i))) st' := by
      intro i
      by_cases hi : i < max 1 n
      · obtain ⟨st, h⟩ := hA'' i hi
        obtain ⟨t, st', h⟩ := loaderDs_endless kind n h i (globalId n r i)
        exact ⟨t, fun _ => ⟨st', h⟩⟩
      · exact ⟨"", fun h => absurd h hi⟩
    choose t ht using h1
    refine ⟨fun N => ?_, fun l hl q hq => ?_⟩
    · obtain ⟨l, h1, h2⟩ := delivered_any ht N
      exact ⟨l, h1, by omega⟩
    · rw [delivered_eq ht hl q hq]
      rfl
  · have h1 : ∀ i < max 1 n, ∃ A' : AnyDs C, workerDs gens E ds { o with epochLength := L } ⟨r, W, n⟩ i = .ok A' ∧ Passes A'.D (epochOf (f (r * max 1 n + i)) (localShare L n i)) := by
      intro i hi
      obtain ⟨A', f', h1, h2, h3⟩ := train_epochs _ _ ds { o with epochLength := L } ⟨r, W, n⟩ i (hA i hi) (hf _ (hlt i hi)).2.2 (Nat.pos_of_ne_zero hL)
      have e : f' = f (r * max 1 n + i) := funext fun k => (hf _ (hlt i hi)).2.1.unique h2 k
      rw [e] at h3
      exact ⟨A', h1, h3⟩
    refine ⟨fun i hi => ?_, fun A' hA' kind => ?_⟩
    · obtain ⟨A', h2, _⟩ := h1 i hi
      exact ⟨A', h2⟩
    replace h1 : ∀ i < max 1 n, Passes (A' i).D (epochOf (f (r * max 1 n + i)) (localShare L n i)) := by
      intro i hi
      obtain ⟨A'', h2, h3⟩ := h1 i hi
      have e := h2.symm.trans (hA' i hi)
      rw [← Except.ok.inj e]
      exact h3
    have key : ∀ ls st, Loops n (rankDs kind n (fun _ => A') r) ls st → ls.flatten.map (·.content) =
        (List.range (ls.length * L)).map fun q => (f (r * max 1 n + (turn L (max 1 n) q).1) (turn L (max 1 n) q).2).content := by
      intro ls st hls
      have := flatten_parts (L := L) (g := fun q => (f (r * max 1 n + (turn L (max 1 n) q).1) (turn L (max 1 n) q).2).content) (ls.map (·.map (·.content))) 0 ?_
      · rw [List.length_map] at this
        rw [List.map_flatten, this]
        simp
      · intro j hj
        rw [List.length_map] at hj
        rw [List.getElem_map, (loops_epochs (f := fun i => f (r * max 1 n + i)) h1 hls j hj).2]
        refine List.map_congr_left fun p hp => ?_
        have hp := List.mem_range.1 hp
        rw [turn_epoch _ _ _ _ hp, localShare_max _ _ _ (Nat.mod_lt _ hn), Nat.zero_add]
    refine ⟨fun N => ?_, fun l hl q hq => ?_⟩
    · have : ∃ ls st, Loops n (rankDs kind n (fun _ => A') r) ls st ∧ ls.length = N := by
        induction N with
        | zero => exact ⟨[], _, .new, rfl⟩
        | succ N ih =>
          obtain ⟨ls, st, h2, h3⟩ := ih
          obtain ⟨_, _, _, x, st', h4⟩ := loops_continue (A := fun _ => A') (out := fun _ i => epochOf (f (r * max 1 n + i)) (localShare L n i)) h1 h2
          exact ⟨_, st', h4, by simp [h3]⟩
      obtain ⟨ls, st, h2, h3⟩ := this
      refine ⟨ls.flatten, ?_, ?_⟩
      · unfold Received
        rw [if_neg hL]
        exact ⟨ls, st, h2, rfl⟩
      · have := congrArg List.length (key ls st h2)
        rw [List.length_map, List.length_map, List.length_range, h3] at this
        rw [this]
        exact Nat.le_mul_of_pos_right _ (Nat.pos_of_ne_zero hL)
    · unfold Received at hl
      rw [if_neg hL] at hl
      obtain ⟨ls, st, h2, rfl⟩ := hl
      have h3 := key ls st h2
      revert hq h3
      generalize ls.flatten = l
      intro hq h3
      have h5 := congrArg (fun x => x[q]?) h3
      have h4 : l.length = ls.length * L := by simpa using congrArg List.length h3
      simpa [List.getElem?_eq_getElem, hq, ← h4] using h5

/-- **C109, one rank.** Take a training run with `T` workers in total in which (without virtual epochs) `next` always returns a batch, and no function of the user looks at `current_sample_index`. There are `T`
sequences of batches (sequence `g` is what the only worker of rank `g` delivers if there are `T` ranks) such that for each way to distribute the workers, `W` ranks with `n` workers each, rank `r` gets the sequences `r*n, ..., r*n+n-1` in turns, from either kind of loader, whatever the schedule
is; and it can get any number of batches. The same is true for virtual epochs, if the length of an epoch is a multiple of the number of workers of a rank.
Missing: functions that use `current_sample_index` (the claim is false, `C109_violated_restore_seeds`); epochs of other lengths (false, `C109_violated_epochs`). -/
theorem C109_rank_partial [DecidableEq K] (gens : Nat → Rngs ρ) (E : Nat → (Nat → Nat) → Encoder C K) (hE : ∀ s v v', E s v = E s v') (ds : List (Disk B C)) (hds : ∀ d ∈ ds, d.Ok) (o : TrainOpts)
    (T : Nat) (h0 : 0 < T) (hT : ∀ g < T, ∃ A, workerDs gens E ds { o with epochLength := 0 } ⟨g, T, 1⟩ 0 = .ok A ∧ A.D.Flows false) :
    ∃ f : Nat → Nat → Smp C, (∀ g < T, ∀ A, workerDs gens E ds { o with epochLength := 0 } ⟨g, T, 1⟩ 0 = .ok A → Loader.Stream A.D (f g)) ∧
      ∀ W n L, W * max 1 n = T → max 1 n ∣ L → ∀ r < W, (∀ i < max 1 n, ∃ A, workerDs gens E ds { o with epochLength := L } ⟨r, W, n⟩ i = .ok A) ∧
      ∀ A : Nat → AnyDs C, (∀ i < max 1 n, workerDs gens E ds { o with epochLength := L } ⟨r, W, n⟩ i = .ok (A i)) →
        ∀ kind, (∀ N, ∃ l, Received L n (rankDs kind n (fun _ => A) r) l ∧ N ≤ l.length) ∧
          ∀ l, Received L n (rankDs kind n (fun _ => A) r) l → ∀ q (hq : q < l.length), l[q].content = (f (r * max 1 n + q % max 1 n) (q / max 1 n)).content := by
  obtain ⟨f, h1, h2⟩ := C109_rank gens E hE ds hds o T h0 hT
  refine ⟨f, h1, fun W n L hW hd r hr => ⟨(h2 W n L hW r hr).1, fun A hA kind => ⟨((h2 W n L hW r hr).2 A hA kind).1, fun l hl q hq => ?_⟩⟩⟩
  rw [((h2 W n L hW r hr).2 A hA kind).2 l hl q hq, turn_dvd _ _ _ (by omega) hd]

/-! ### Global batches -/

theorem flatMap_swap {α β γ : Type} (l : List α) (l' : List β) (f : α → β → γ) : (l.flatMap fun a => l'.map fun b => f a b).Perm (l'.flatMap fun b => l.map fun a => f a b) := by
  induction l with
  | nil => simp
  | cons a l ih =>
    rw [List.flatMap_cons]
    refine (List.Perm.append_left _ ih).trans ?_
    have e : (l'.map fun b => f a b) = l'.flatMap fun b => [f a b] := List.map_eq_flatMap
    rw [e]
    exact (List.flatMap_append_perm _ _ _).trans (List.Perm.of_eq (by simp))

theorem range_mul_map {α : Type} (a b : Nat) (f : Nat → α) : (List.range (a * b)).map f = (List.range a).flatMap fun r => (List.range b).map fun i => f (r * b + i) := by
  have := Sharder.range_mul_flatMap a b fun j => [f j]
  simp only [← List.map_eq_flatMap] at this
  exact this.symm

/-- **C109, global batches.** The global batch of training step `t`, with `m` batches of each worker in a training step (that is, with `m * max 1 n` gradient accumulation steps on each rank): it consists of the
batches `t*m, ..., t*m+m-1` of each of the `T` sequences of batches, however the workers are distributed.
Missing: see `C109_rank_partial`. -/
theorem C109_global_batches_partial [DecidableEq K] (gens : Nat → Rngs ρ) (E : Nat → (Nat → Nat) → Encoder C K) (hE : ∀ s v v', E s v = E s v') (ds : List (Disk B C)) (hds : ∀ d ∈ ds, d.Ok) (o : TrainOpts)
    (T : Nat) (h0 : 0 < T) (hT : ∀ g < T, ∃ A, workerDs gens E ds { o with epochLength := 0 } ⟨g, T, 1⟩ 0 = .ok A ∧ A.D.Flows false) :
    ∃ f : Nat → Nat → Smp C, (∀ g < T, ∀ A, workerDs gens E ds { o with epochLength := 0 } ⟨g, T, 1⟩ 0 = .ok A → Loader.Stream A.D (f g)) ∧ ∀ W n L, W * max 1 n = T → max 1 n ∣ L →
      ∀ A : Nat → Nat → AnyDs C, (∀ r < W, ∀ i < max 1 n, workerDs gens E ds { o with epochLength := L } ⟨r, W, n⟩ i = .ok (A r i)) →
        ∀ (kind : Kind) (l : Nat → List (Smp C)), (∀ r < W, Received L n (rankDs kind n A r) (l r)) → ∀ m t, (∀ r < W, (t + 1) * (m * max 1 n) ≤ (l r).length) →
          (globalBatch W (m * max 1 n) t l).Perm ((List.range T).flatMap fun g => (List.range m).map fun k => (f g (t * m + k)).content) := by
  obtain ⟨f, hf0, hf⟩ := C109_rank_partial gens E hE ds hds o T h0 hT
  refine ⟨f, hf0, fun W n L hW hd A hA kind l hl m t hlen => ?_⟩
  have hn : 0 < max 1 n := by omega
  unfold globalBatch
  have hr : ∀ r ∈ List.range W, ((fun r => Pipeline.step (m * max 1 n) t (l r)) r).Perm ((List.range (max 1 n)).flatMap fun i => (List.range m).map fun k => (f (r * max 1 n + i) (t * m + k)).content) := by
    intro r hr
    have hr := List.mem_range.1 hr
    have e : Pipeline.step (m * max 1 n) t (l r) = (List.range (m * max 1 n)).map fun q => (f (r * max 1 n + q % max 1 n) (t * m + q / max 1 n)).content := by
      have hl' := hlen r hr
      rw [Nat.succ_mul] at hl'
      apply List.ext_getElem
      · simp [Pipeline.step]
        omega
      · intro q h1 h2
        simp only [List.length_map, List.length_range] at h2
        simp only [Pipeline.step, List.getElem_map, List.getElem_take, List.getElem_drop, List.getElem_range]
        rw [((hf W n L hW hd r hr).2 (A r) (hA r hr) kind).2 (l r) (hl r hr) _ (by omega)]
        have e1 : t * (m * max 1 n) + q = q + max 1 n * (t * m) := by rw [← Nat.mul_assoc, Nat.mul_comm (max 1 n)]; omega
        rw [e1, Nat.add_mul_mod_self_left, Nat.add_mul_div_left _ _ hn, Nat.add_comm (q / max 1 n)]
    show (Pipeline.step (m * max 1 n) t (l r)).Perm _
    rw [e, range_mul_map]
    refine List.Perm.trans (List.Perm.of_eq ?_) (flatMap_swap (List.range m) (List.range (max 1 n)) fun k i => (f (r * max 1 n + i) (t * m + k)).content)
    refine List.flatMap_congr fun k hk => List.map_congr_left fun i hi => ?_
    have hi := List.mem_range.1 hi
    rw [Nat.mul_comm k, Nat.mul_add_mod, Nat.mod_eq_of_lt hi, Nat.mul_add_div hn, Nat.div_eq_of_lt hi, Nat.add_zero]
  refine (List.Perm.flatMap_left _ hr).trans (List.Perm.of_eq ?_)
  rw [Sharder.range_mul_flatMap W (max 1 n) fun g => (List.range m).map fun k => (f g (t * m + k)).content, hW]

/-- **C109.** Two training runs with the same number of workers in total (and the same seeds), in which each worker contributes the same number `m` of batches to a global batch: training step `t` uses the same global
batch in both, up to the order of the batches in it. (The hypotheses about both runs: the datasets of the workers, and what the ranks have got.)
Missing: see `C109_rank_partial`. -/
theorem C109_same_global_batches_partial [DecidableEq K] (gens : Nat → Rngs ρ) (E : Nat → (Nat → Nat) → Encoder C K) (hE : ∀ s v v', E s v = E s v') (ds : List (Disk B C)) (hds : ∀ d ∈ ds, d.Ok) (o : TrainOpts)
    (W₁ n₁ L₁ W₂ n₂ L₂ : Nat) (hT : W₁ * max 1 n₁ = W₂ * max 1 n₂) (hW : 0 < W₁) (hd₁ : max 1 n₁ ∣ L₁) (hd₂ : max 1 n₂ ∣ L₂)
    (hflow : ∀ g < W₁ * max 1 n₁, ∃ A, workerDs gens E ds { o with epochLength := 0 } ⟨g, W₁ * max 1 n₁, 1⟩ 0 = .ok A ∧ A.D.Flows false)
    (A₁ A₂ : Nat → Nat → AnyDs C) (kind₁ kind₂ : Kind) (l₁ l₂ : Nat → List (Smp C))
    (hA₁ : ∀ r < W₁, ∀ i < max 1 n₁, workerDs gens E ds { o with epochLength := L₁ } ⟨r, W₁, n₁⟩ i = .ok (A₁ r i)) (hl₁ : ∀ r < W₁, Received L₁ n₁ (rankDs kind₁ n₁ A₁ r) (l₁ r))
    (hA₂ : ∀ r < W₂, ∀ i < max 1 n₂, workerDs gens E ds { o with epochLength := L₂ } ⟨r, W₂, n₂⟩ i = .ok (A₂ r i)) (hl₂ : ∀ r < W₂, Received L₂ n₂ (rankDs kind₂ n₂ A₂ r) (l₂ r))
    (m t : Nat) (h₁ : ∀ r < W₁, (t + 1) * (m * max 1 n₁) ≤ (l₁ r).length) (h₂ : ∀ r < W₂, (t + 1) * (m * max 1 n₂) ≤ (l₂ r).length) :
    (globalBatch W₁ (m * max 1 n₁) t l₁).Perm (globalBatch W₂ (m * max 1 n₂) t l₂) := by
  obtain ⟨f, _, hf⟩ := C109_global_batches_partial gens E hE ds hds o _ (Nat.mul_pos hW (by omega)) hflow
  exact (hf W₁ n₁ L₁ rfl hd₁ A₁ hA₁ kind₁ l₁ hl₁ m t h₁).trans (hf W₂ n₂ L₂ hT.symm hd₂ A₂ hA₂ kind₂ l₂ hl₂ m t h₂).symm

/-! ### Other micro-batch sizes -/

theorem Endless.flows {D : Dataset σ (Smp C) κ} {f : Nat → Smp C} {st : Nat → σ} (h : Endless D f st) : D.Flows false := by
  have key : ∀ evs s k, D.Run (st k) evs s → ∃ j, s = st j := by
    intro evs
    induction evs with
    | nil => intro s k hr; cases hr; exact ⟨k, rfl⟩
    | cons e evs ih =>
      intro s k hr
      cases hr with
      | item ho hr =>
        have := Obs.det ho (h.2 k)
        cases this
        exact ih s (k + 1) hr
      | fin ho hr => have := Obs.det ho (h.2 k); cases this
  intro evs s hs
  rw [← h.1] at hs
  obtain ⟨j, rfl⟩ := key evs s 0 hs
  exact .inl ⟨_, _, h.2 j⟩

theorem batch_fill {D : Dataset σ (Smp C) κ} {f : Nat → Smp C} {st : Nat → σ} (h : Endless D f st) {b : Nat} {dl : Bool} {F : BatchFn C C} (hF : ∀ i l, ∃ c, F i l = .ok c) (r : Nat) :
    ∀ (a k : Nat) (batch : List (Smp C)) (keys : List (List Key)), batch.length + (r + 1) = b →
      ∃ c ks, F k (batch ++ (List.range (r + 1)).map fun j => f (a + j)) = .ok c ∧
        Obs (batchD D b dl F).step (st a, ⟨k, batch, keys, .loop⟩) (.item ⟨c, batchKey k ks⟩ (st (a + (r + 1)), ⟨k + 1, batch ++ (List.range (r + 1)).map fun j => f (a + j), ks, .emitted false⟩)) := by
  induction r with
  | zero =>
    intro a k batch keys hb
    obtain ⟨c, hc⟩ := hF k (batch ++ [f a])
    refine ⟨c, keys ++ [(f a).key], by simpa using hc, ?_⟩
    refine obs_pull_item (src := Source.single D) (i := ()) rfl (h.2 a) ?_
    dsimp only
    rw [if_pos (by omega)]
    refine .item ?_
    simp only [wrapStep, batchW, hc]
    simp
  | succ r ih =>
    intro a k batch keys hb
    obtain ⟨c, ks, h1, h2⟩ := ih (a + 1) k (batch ++ [f a]) (keys ++ [(f a).key]) (by simp; omega)
    have e : batch ++ (List.range (r + 1 + 1)).map (fun j => f (a + j)) = batch ++ [f a] ++ (List.range (r + 1)).map fun j => f (a + 1 + j) := by
      rw [List.range_succ_eq_map, List.map_cons, List.map_map, List.append_assoc]
      simp [Function.comp_def, Nat.add_assoc, Nat.add_comm 1]
    have e' : a + 1 + (r + 1) = a + (r + 1 + 1) := by omega
    rw [← e] at h1 h2
    rw [e'] at h2
    refine ⟨c, ks, h1, ?_⟩
    refine obs_pull_item (src := Source.single D) (i := ()) rfl (h.2 a) ?_
    dsimp only
    rw [if_neg (by omega)]
    exact h2

/-- Batches of an endless sequence. -/
theorem Endless.batch {D : Dataset σ (Smp C) κ} {f : Nat → Smp C} {st : Nat → σ} (h : Endless D f st) {b : Nat} (hb : 0 < b) {dl : Bool} {F : BatchFn C C} (hF : ∀ i l, ∃ c, F i l = .ok c) :
    ∃ g st', Endless (batchD D b dl F) g st' ∧ ∀ k, F k ((List.range b).map fun j => f (k * b + j)) = .ok (g k).content := by
  have h1 := fun k => batch_fill h (b := b) (dl := dl) hF (b - 1) (k * b) k [] [] (by simp; omega)
  rw [Nat.sub_add_cancel hb] at h1
  choose c ks h1 h2 using h1
  refine ⟨fun k => ⟨c k, batchKey k (ks k)⟩, fun k => match k with | 0 => (st 0, ⟨0, [], [], .loop⟩) | k + 1 => (st (k * b + b), ⟨k + 1, (List.range b).map fun j => f (k * b + j), ks k, .emitted false⟩), ⟨?_, ?_⟩, ?_⟩
  · show (st 0, _) = (D.init, _)
    rw [h.1]
    rfl
  · intro k
    cases k with
    | zero =>
      have := h2 0
      simpa using this
    | succ k =>
      refine .skip (s' := (st ((k + 1) * b), ⟨k + 1, [], [], .loop⟩)) ?_ (h2 (k + 1))
      rw [Nat.succ_mul]
      rfl
  · intro k
    exact h1 k

theorem Endless.map {D : Dataset σ (Smp C) κ} {f : Nat → Smp C} {st : Nat → σ} (h : Endless D f st) {F : MapFn C C} {stl : Bool} {g : Nat → C} (hF : ∀ k, F k (f k) = .ok (g k)) :
    ∃ f', Endless (mapD D F stl) f' (fun j => (st j, ⟨j, .loop⟩)) ∧ ∀ k, (f' k).content = g k := by
  refine ⟨fun k => Smp.addKey [.str "MapDataset", .num k] ⟨g k, (f k).key⟩, ⟨?_, fun j => ?_⟩, fun k => rfl⟩
  · show (st 0, _) = (D.init, _)
    rw [h.1]
    rfl
  · refine obs_pull_item (src := Source.single D) (i := ()) rfl (h.2 j) (.item ?_)
    simp only [wrapStep, loopW, mapBody, hF]

/-- The same task encoder without batching. -/
def Encoder.unbatched (E : Encoder C K) : Encoder C K := { E with encodeBatch := none, batchOverridden := false }

/-- Batches are made of samples: `parts c` are the samples in the batch `c` (or `c` itself, if it is a sample); `batch` and `encode_batch` lose, change or duplicate none. -/
structure Encoder.Collects {X : Type} (E : Encoder C K) (parts : C → List X) : Prop where
  group : E.group = none
  batch : ∀ i l, ∃ c, E.batch i l = .ok c ∧ parts c = l.flatMap fun a => parts a.content
  encodeBatch : ∀ u, E.encodeBatch = some u → ∃ f st, u = .plain f st ∧ ∀ n a, ∃ c, f n a = .ok c ∧ parts c = parts a.content

theorem batch_stage {X : Type} [DecidableEq K] {E : Encoder C K} {parts : C → List X} (hE : E.Collects parts) {A : AnyDs C} {f : Nat → Smp C} {st : Nat → A.σ} (h : Endless A.D f st) {b : Nat} (hb : 0 < b)
    (dl : Bool) : ∃ A' g st', batchStage E (some b) dl A = .ok A' ∧ Endless A'.D g st' ∧ ∀ k, parts (g k).content = (List.range b).flatMap fun j => parts (f (k * b + j)).content := by
  obtain ⟨g, st', h1, h2⟩ := h.batch (dl := dl) hb (F := E.batch) fun i l => (hE.batch i l).imp fun _ h => h.1
  have h3 : ∀ k, parts (g k).content = (List.range b).flatMap fun j => parts (f (k * b + j)).content := by
    intro k
    obtain ⟨c, h3, h4⟩ := hE.batch k ((List.range b).map fun j => f (k * b + j))
    rw [h2 k] at h3
    cases h3
    rw [h4, List.flatMap_map]
  have h1' : Endless (onlyIf E.batchStateless ⟨_, _, batchD A.D b dl E.batch⟩).D g st' := h1
  unfold batchStage
  rw [hE.group]
  dsimp only
  cases he : E.encodeBatch with
  | none => exact ⟨onlyIf E.batchStateless ⟨_, _, batchD A.D b dl E.batch⟩, g, st', rfl, h1', h3⟩
  | some u =>
    obtain ⟨F, stl, rfl, hF⟩ := hE.encodeBatch u he
    have h4 : ∀ k, ∃ c, F k (g k) = .ok c ∧ parts c = parts (g k).content := fun k => hF k (g k)
    choose c h4 h5 using h4
    obtain ⟨f', h6, h7⟩ := h1'.map (stl := stl) h4
    exact ⟨_, f', _, rfl, h6, fun k => by rw [h7, h5, h3]⟩

/-- The batches of one worker are made of its samples. -/
theorem train_batches {X : Type} [DecidableEq K] {R : Rngs ρ} {E : Encoder C K} {parts : C → List X} (hE : E.Collects parts) {ds : List (Disk B C)} {o : TrainOpts} {w : Sharder.WorkerConfig} {i : Nat} {A0 : AnyDs C}
    (h0 : trainDs R E.unbatched ds { o with batchSize := none, epochLength := 0 } w i = .ok A0) (hf : A0.D.Flows false) {b : Nat} (hb : 0 < b) :
    ∃ A g st f, trainDs R E ds { o with batchSize := some b, epochLength := 0 } w i = .ok A ∧ Endless A.D g st ∧ Loader.Stream A0.D f ∧
      ∀ k, parts (g k).content = (List.range b).flatMap fun j => parts (f (k * b + j)).content := by
  unfold trainDs buildBatch at h0 ⊢
  cases h1 : trainSource R ds w i with
  | error e => rw [h1] at h0; cases h0
  | ok A1 =>
    rw [h1] at h0
    dsimp only at h0 ⊢
    have hp : packStage E.unbatched o.packing (mapStage E.unbatched.encode (mapStage E.unbatched.cook (shuffleStage R o.shuffleSize A1))) =
        packStage E o.packing (mapStage E.encode (mapStage E.cook (shuffleStage R o.shuffleSize A1))) := rfl
    rw [hp] at h0
    cases h2 : packStage E o.packing (mapStage E.encode (mapStage E.cook (shuffleStage R o.shuffleSize A1))) with
    | error e => rw [h2] at h0; cases h0
    | ok A2 =>
      rw [h2] at h0
      have hg : E.unbatched.group = none := hE.group
      have hbs : batchStage E.unbatched none o.dropLast A2 = .ok A2 := by
        unfold batchStage
        rw [hg]
        rfl
      dsimp only at h0 ⊢
      rw [hbs] at h0
      dsimp only at h0 ⊢
      have e : ∀ A' : AnyDs C, epochStage 0 w.numWorkers i A' = A' := fun A' => if_neg (by decide)
      rw [e] at h0
      have key : ∃ f st, Endless A2.D f st ∧ Loader.Stream A0.D f := by
        revert h0
        cases o.logging with
        | false =>
          intro h0
          cases h0
          obtain ⟨f, st, h⟩ := endless_of_flows hf
          exact ⟨f, st, h, h.stream⟩
        | true =>
          intro h0
          cases h0
          obtain ⟨f, st, h⟩ := endless_of_flows hf
          exact ⟨f, _, h.unlog, h.stream⟩
      obtain ⟨f, st, h3, h4⟩ := key
      obtain ⟨A', g, st', h5, h6, h7⟩ := batch_stage hE h3 hb o.dropLast
      rw [h5]
      dsimp only
      rw [e]
      cases o.logging with
      | false => exact ⟨_, g, st', f, rfl, h6, h4, h7⟩
      | true => exact ⟨_, g, _, f, rfl, h6.log, h4, h7⟩

theorem flatMap_blocks {α : Type} (s m b : Nat) (F : Nat → List α) :
    ((List.range m).flatMap fun k => (List.range b).flatMap fun j => F ((s + k) * b + j)) = (List.range (m * b)).flatMap fun q => F (s * b + q) := by
  rw [← Sharder.range_mul_flatMap m b fun q => F (s * b + q)]
  refine List.flatMap_congr fun k _ => List.flatMap_congr fun j _ => ?_
  congr 1
  rw [Nat.add_mul]
  omega

/-- **C109, samples.** Also the micro-batch size `b` may be another one. Let `parts c` be the samples in batch `c`. Take a training run with `T` workers in total whose workers deliver endless sequences of samples if they are
not batched, where no function of the user looks at `current_sample_index`. There are `T` sequences of samples such that with every way to distribute the workers and every micro-batch size, the global batch of
training step `t` consists of the samples `t*s, ..., t*s+s-1` of each of the `T` sequences, where `s = m*b` is the number of samples that a worker contributes to a global batch.
Missing: see `C109_rank_partial`. -/
theorem C109_global_samples_partial {X : Type} [DecidableEq K] (gens : Nat → Rngs ρ) (E : Nat → (Nat → Nat) → Encoder C K) (hE : ∀ s v v', E s v = E s v') (parts : C → List X) (hC : ∀ s v, (E s v).Collects parts)
    (ds : List (Disk B C)) (hds : ∀ d ∈ ds, d.Ok) (o : TrainOpts) (T : Nat) (h0 : 0 < T)
    (hT : ∀ g < T, ∃ A, workerDs gens (fun s v => (E s v).unbatched) ds { o with batchSize := none, epochLength := 0 } ⟨g, T, 1⟩ 0 = .ok A ∧ A.D.Flows false) :
    ∃ f : Nat → Nat → Smp C, ∀ W n L b, W * max 1 n = T → max 1 n ∣ L → 0 < b →
      ∀ A : Nat → Nat → AnyDs C, (∀ r < W, ∀ i < max 1 n, workerDs gens E ds { o with batchSize := some b, epochLength := L } ⟨r, W, n⟩ i = .ok (A r i)) →
        ∀ (kind : Kind) (l : Nat → List (Smp C)), (∀ r < W, Received L n (rankDs kind n A r) (l r)) → ∀ m t, (∀ r < W, (t + 1) * (m * max 1 n) ≤ (l r).length) →
          ((globalBatch W (m * max 1 n) t l).flatMap parts).Perm ((List.range T).flatMap fun g => (List.range (m * b)).flatMap fun k => parts (f g (t * (m * b) + k)).content) := by
  have h : ∀ g, ∃ (A : AnyDs C) (f : Nat → Smp C) (st : Nat → A.σ), g < T →
      workerDs gens (fun s v => (E s v).unbatched) ds { o with batchSize := none, epochLength := 0 } ⟨g, T, 1⟩ 0 = .ok A ∧ Endless A.D f st ∧ A.D.Flows false := by
    intro g
    by_cases hg : g < T
    · obtain ⟨A, h1, h2⟩ := hT g hg
      obtain ⟨f, st, h3⟩ := endless_of_flows h2
      exact ⟨A, f, st, fun _ => ⟨h1, h3, h2⟩⟩
    · obtain ⟨A, h1, h2⟩ := hT 0 h0
      obtain ⟨f, st, h3⟩ := endless_of_flows h2
      exact ⟨A, f, st, fun h => absurd h hg⟩
  choose A0 f st hf using h
  refine ⟨f, fun W n L b hW hd hb A hA kind l hl m t hlen => ?_⟩
  have hB : ∀ g < T, ∃ A fb st, workerDs gens E ds { o with batchSize := some b, epochLength := 0 } ⟨g, T, 1⟩ 0 = .ok A ∧ Endless A.D fb st ∧
      ∀ k, parts (fb k).content = (List.range b).flatMap fun j => parts (f g (k * b + j)).content := by
    intro g hg
    obtain ⟨A, fb, st, f', h1, h2, h3, h4⟩ := train_batches (hC _ _) (hf g hg).1 (hf g hg).2.2 hb
    have e : f' = f g := funext fun k => (hf g hg).2.1.unique h3 k
    rw [e] at h4
    exact ⟨A, fb, st, h1, h2, h4⟩
  obtain ⟨fb, hfb, h1⟩ := C109_global_batches_partial gens E hE ds hds { o with batchSize := some b } T h0 fun g hg => by
    obtain ⟨A, fb, st, h1, h2, _⟩ := hB g hg
    exact ⟨A, h1, h2.flows⟩
  have h2 := (h1 W n L hW hd A hA kind l hl m t hlen).flatMap_right parts
  refine h2.trans (List.Perm.of_eq ?_)
  rw [List.flatMap_assoc]
  refine List.flatMap_congr fun g hg => ?_
  have hg := List.mem_range.1 hg
  rw [List.flatMap_map]
  have h3 : ∀ k, parts (fb g k).content = (List.range b).flatMap fun j => parts (f g (k * b + j)).content := by
    intro k
    obtain ⟨A, fb', st, h4, h5, h6⟩ := hB g hg
    rw [h5.unique (hfb g hg A h4) k]
    exact h6 k
  simp only [h3]
  rw [flatMap_blocks (t * m) m b fun q => parts (f g q).content, Nat.mul_assoc]

/-! ### When it applies, cases, and where it fails -/

/-- **C109, when it applies.** For task encoders whose functions accept all samples and well-formed datasets with at least as many samples as there are workers, the workers deliver endless sequences. -/
theorem C109_accepting [DecidableEq K] (gens : Nat → Rngs ρ) (E : Nat → (Nat → Nat) → Encoder C K) (ds : List (Disk B C)) (o : TrainOpts) (W n : Nat) (hne : ds ≠ [])
    (hds : ∀ d ∈ ds, d.Ok ∧ (∀ r, d.Enough ⟨r, W, n⟩) ∧ d.Loads) (hE : ∀ s v, (E s v).Accepts o.batchSize o.packing) (hF : ∀ s v, (E s v).Fits o.batchSize o.packing) (r : Nat) (hr : r < W) (i : Nat)
    (hi : i < max 1 n) : ∃ A, workerDs gens E ds { o with epochLength := 0 } ⟨r, W, n⟩ i = .ok A ∧ A.D.Flows false := by
  obtain ⟨A, h1, h2⟩ := C77_train_flows (gens (seedId ⟨r, W, n⟩ i)) (E (seedId ⟨r, W, n⟩ i) (visible n i)) ds { o with epochLength := 0 } ⟨r, W, n⟩ i hne
    (fun d hd => ⟨(hds d hd).1, (hds d hd).2.1 r, (hds d hd).2.2⟩) hr hi (hE _ _) (hF _ _)
  refine ⟨A, h1, fun evs s hs => ?_⟩
  rcases h2 evs s hs with h | ⟨h, _⟩
  · exact .inl h
  · exact absurd h (by simp)

theorem exTwo (r W n : Nat) (h : max 1 n * W ≤ 4) : ∀ d ∈ [exDisk "a" 10 4, exDisk "b" 100 6], d.Ok ∧ d.Enough ⟨r, W, n⟩ ∧ d.Loads := by
  have hl : ∀ (name : String) (first n : Nat), first ∈ [10, 100] → n ≤ 6 → (exDisk name first n).Loads := by
    intro name first n h1 h2
    refine ⟨?_, fun _ _ => ⟨_, rfl⟩, ?_⟩
    · intro s hs
      simp only [exDisk, List.mem_singleton] at hs
      subst hs
      simp only [exDisk, if_true]
      exact exTarN_groups n h2 first h1
    · intro n hn
      simp only [exDisk] at hn
      cases hn
      decide
  have he : ∀ (name : String) (first k : Nat), 4 ≤ k → (exDisk name first k).Enough ⟨r, W, n⟩ := by
    intro name first k hk
    unfold Disk.Enough
    simp only [exDisk, Sharder.total, Sharder.WorkerConfig.globalWorkers, Sharder.WorkerConfig.workers, List.map_cons, List.map_nil, List.sum_cons, List.sum_nil]
    omega
  intro d hd
  simp only [List.mem_cons, List.not_mem_nil, or_false] at hd
  rcases hd with rfl | rfl
  · exact ⟨exDisk_ok _ _ _ (by decide), he _ _ _ (by decide), hl _ _ _ (by decide) (by decide)⟩
  · exact ⟨exDisk_ok _ _ _ (by decide), he _ _ _ (by decide), hl _ _ _ (by decide) (by decide)⟩

/-- A function that is used in all workers in the same way: the hypotheses of the theorems are met, for 4 workers in total, and batches of two global batches can be got with 2 ranks of 2 workers and virtual epochs
of 6 batches, as with 4 ranks without worker processes. -/
example : ∃ f : Nat → Nat → Smp Nat, ∀ W n L, W * max 1 n = 4 → max 1 n ∣ L → ∀ r < W, ∃ A : Nat → AnyDs Nat,
    (∀ i < max 1 n, workerDs (fun _ => exR) (fun _ _ => exE) [exDisk "a" 10 4, exDisk "b" 100 6] { exO with epochLength := L } ⟨r, W, n⟩ i = .ok (A i)) ∧
      ∃ l, Received L n (rankDs .basic n (fun _ => A) r) l ∧ 12 ≤ l.length ∧
        ∀ q (hq : q < l.length), l[q].content = (f (r * max 1 n + q % max 1 n) (q / max 1 n)).content := by
  obtain ⟨f, _, hf⟩ := C109_rank_partial (fun _ => exR) (fun _ _ => exE) (fun _ _ _ => rfl) [exDisk "a" 10 4, exDisk "b" 100 6] (fun d hd => (exTwo 0 1 1 (by decide) d hd).1) exO 4 (by decide)
    (fun g hg => C109_accepting (fun _ => exR) (fun _ _ => exE) _ exO 4 1 (by simp)
      (fun d hd => ⟨(exTwo 0 4 1 (by decide) d hd).1, fun r => (exTwo r 4 1 (by decide) d hd).2.1, (exTwo 0 4 1 (by decide) d hd).2.2⟩)
      (fun _ _ => ⟨by simp [exE], by simp [exE, UserMap.Accepts], by simp [exE], by simp [exE], by
        intro n hn
        cases hn
        exact ⟨by decide, fun _ _ => ⟨_, rfl⟩⟩, by simp [exO]⟩) (fun _ _ => ⟨by simp [exO], by simp [exO]⟩) g hg 0 (by decide))
  refine ⟨f, fun W n L hW hL r hr => ?_⟩
  obtain ⟨h1, h2⟩ := hf W n L hW hL r hr
  have : ∀ i, ∃ A, i < max 1 n → workerDs (fun _ => exR) (fun _ _ => exE) [exDisk "a" 10 4, exDisk "b" 100 6] { exO with epochLength := L } ⟨r, W, n⟩ i = .ok A := by
    intro i
    by_cases hi : i < max 1 n
    · obtain ⟨A, h⟩ := h1 i hi
      exact ⟨A, fun _ => h⟩
    · obtain ⟨A, _⟩ := h1 0 (by omega)
      exact ⟨A, fun h => absurd h hi⟩
  choose A hA using this
  obtain ⟨l, h3, h4⟩ := (h2 A hA .basic).1 12
  exact ⟨A, hA, l, h3, h4, (h2 A hA .basic).2 l h3⟩

/-- The samples in a batch can be told: the hypothesis of `C109_global_samples_partial` about the functions of the user is met, for lists of samples. -/
example : ({ cook := none, encode := none, pack := none, group := none, batch := fun _ b => .ok (b.flatMap (·.content)), batchOverridden := true
             encodeBatch := some (.plain (fun _ a => .ok a.content) true) } : Encoder (List Nat) Nat).Collects id :=
  ⟨rfl, fun _ l => ⟨_, rfl, rfl⟩, fun u hu => by cases hu; exact ⟨_, _, rfl, fun _ a => ⟨_, rfl, rfl⟩⟩⟩

/-- A function that draws a random number: with `@stateless(restore_seeds=True)` (task_encoder/base.py:185-200) the generators are seeded with the seed of the worker and `current_sample_index` before each call. (Here the
"random number" is the sample index, times 1000.) -/
def exSeeded (_ : Nat) (v : Nat → Nat) : Encoder Nat Nat := { exE with encode := some (.plain (fun k a => .ok (1000 * v k + 2 * a.content)) true) }

theorem first_content {X : Except BErr (AnyDs Nat)} {A : AnyDs Nat} (hX : X = .ok A) {f : Nat → Smp Nat} {st : Nat → A.σ} (h : Endless A.D f st) {n c : Nat} (hd : delivered X n = [some c]) : (f 0).content = c := by
  subst hX
  unfold delivered at hd
  dsimp only at hd
  have ht := A.D.eval_trace n A.D.init
  generalize A.D.eval n A.D.init = evs at hd ht
  match evs, hd with
  | e :: es, hd =>
    have hd := (List.cons.inj hd).1
    rw [← h.1] at ht
    cases ht with
    | item ho _ =>
      have := Obs.det ho (h.2 0)
      cases this
      simpa using hd
    | fin ho _ => have := Obs.det ho (h.2 0); cases this
    | err ho => have := Obs.det ho (h.2 0); cases this

/-- **C109 is violated** by functions that use `current_sample_index`, also implicitly by `@stateless(restore_seeds=True)`, which is the documented way to use randomness: the index depends on how the workers are distributed. With two workers in
total, the first global batch (2 batches of 2 samples) of 2 ranks with one worker each is not the one of a single rank with two workers. (All other hypotheses of `C109_same_global_batches_partial` are met.) -/
theorem C109_violated_restore_seeds : ∃ (E : Nat → (Nat → Nat) → Encoder Nat Nat) (ds : List (Disk Nat Nat)) (A₁ A₂ : Nat → Nat → AnyDs Nat) (l₁ l₂ : Nat → List (Smp Nat)),
    (∀ d ∈ ds, d.Ok) ∧ (∀ g < 2, ∃ A, workerDs (fun _ => exR) E ds exO ⟨g, 2, 1⟩ 0 = .ok A ∧ A.D.Flows false) ∧ exO.epochLength = 0 ∧
    (∀ r < 2, ∀ i < 1, workerDs (fun _ => exR) E ds exO ⟨r, 2, 1⟩ i = .ok (A₁ r i)) ∧ (∀ r < 2, Received 0 1 (rankDs .basic 1 A₁ r) (l₁ r) ∧ 1 ≤ (l₁ r).length) ∧
    (∀ r < 1, ∀ i < 2, workerDs (fun _ => exR) E ds exO ⟨r, 1, 2⟩ i = .ok (A₂ r i)) ∧ (∀ r < 1, Received 0 2 (rankDs .basic 2 A₂ r) (l₂ r) ∧ 2 ≤ (l₂ r).length) ∧
    ¬ (globalBatch 2 1 0 l₁).Perm (globalBatch 1 2 0 l₂) := by
  have hacc : ∀ W n, max 1 n * W ≤ 4 → ∀ r < W, ∀ i < max 1 n, ∃ A, workerDs (fun _ => exR) exSeeded [exDisk "a" 10 4, exDisk "b" 100 6] exO ⟨r, W, n⟩ i = .ok A ∧ A.D.Flows false := by
    intro W n hle r hr i hi
    exact C109_accepting (fun _ => exR) exSeeded [exDisk "a" 10 4, exDisk "b" 100 6] exO W n (by simp)
      (fun d hd => ⟨(exTwo 0 W n hle d hd).1, fun r => (exTwo r W n hle d hd).2.1, (exTwo 0 W n hle d hd).2.2⟩)
      (fun s v => ⟨by simp [exSeeded, exE], by
        intro f hf
        cases hf
        exact fun _ _ => ⟨_, rfl⟩, by simp [exSeeded, exE], by simp [exSeeded, exE], by
        intro n hn
        cases hn
        exact ⟨by decide, fun _ _ => ⟨_, rfl⟩⟩, by simp [exO]⟩) (fun _ _ => ⟨by simp [exO], by simp [exO]⟩) r hr i hi
  have hrun : ∀ W n, max 1 n * W ≤ 4 → 0 < W → ∃ (A : Nat → Nat → AnyDs Nat) (f : Nat → Nat → Nat → Smp Nat),
      ∀ r < W, ∀ i < max 1 n, workerDs (fun _ => exR) exSeeded [exDisk "a" 10 4, exDisk "b" 100 6] exO ⟨r, W, n⟩ i = .ok (A r i) ∧ ∃ st, Endless (A r i).D (f r i) st := by
    intro W n hle hW
    have h : ∀ r i, ∃ (A : AnyDs Nat) (f : Nat → Smp Nat), r < W → i < max 1 n →
        workerDs (fun _ => exR) exSeeded [exDisk "a" 10 4, exDisk "b" 100 6] exO ⟨r, W, n⟩ i = .ok A ∧ ∃ st, Endless A.D f st := by
      intro r i
      by_cases hr : r < W ∧ i < max 1 n
      · obtain ⟨A, h1, h2⟩ := hacc W n hle r hr.1 i hr.2
        obtain ⟨f, st, h3⟩ := endless_of_flows h2
        exact ⟨A, f, fun _ _ => ⟨h1, st, h3⟩⟩
      · obtain ⟨A, h1, h2⟩ := hacc W n hle 0 hW 0 (by omega)
        obtain ⟨f, st, h3⟩ := endless_of_flows h2
        exact ⟨A, f, fun h h' => absurd ⟨h, h'⟩ hr⟩
    choose A f h using h
    exact ⟨A, f, fun r hr i hi => h r i hr hi⟩
  have hload : ∀ (n : Nat) (A : Nat → Nat → AnyDs Nat) (f : Nat → Nat → Nat → Smp Nat) (r N : Nat), (∀ i < max 1 n, ∃ st, Endless (A r i).D (f r i) st) →
      ∃ l, Received 0 n (rankDs .basic n A r) l ∧ l.length = N ∧ ∀ q (hq : q < l.length), l[q].content = (f r (q % max 1 n) (q / max 1 n)).content := by
    intro n A f r N h
    have h1 : ∀ i, ∃ t, i < max 1 n → ∃ st', Endless (rankDs .basic n A r i).D (labelled t (globalId n r i) (f r i)) st' := by
      intro i
      by_cases hi : i < max 1 n
      · obtain ⟨st, h⟩ := h i hi
        obtain ⟨t, st', h⟩ := loaderDs_endless .basic n h i (globalId n r i)
        exact ⟨t, fun _ => ⟨st', h⟩⟩
      · exact ⟨"", fun h => absurd h hi⟩
    choose t ht using h1
    obtain ⟨l, h2, h3⟩ := delivered_any ht N
    refine ⟨l, h2, h3, fun q hq => ?_⟩
    rw [delivered_eq ht h2 q hq]
    rfl
  obtain ⟨A₁, f₁, h₁⟩ := hrun 2 1 (by decide) (by decide)
  obtain ⟨A₂, f₂, h₂⟩ := hrun 1 2 (by decide) (by decide)
  obtain ⟨a, a1, a2, a3⟩ := hload 1 A₁ f₁ 0 1 fun i hi => (h₁ 0 (by decide) i hi).2
  obtain ⟨b, b1, b2, b3⟩ := hload 1 A₁ f₁ 1 1 fun i hi => (h₁ 1 (by decide) i hi).2
  obtain ⟨c, c1, c2, c3⟩ := hload 2 A₂ f₂ 0 2 fun i hi => (h₂ 0 (by decide) i hi).2
  refine ⟨exSeeded, [exDisk "a" 10 4, exDisk "b" 100 6], A₁, A₂, fun r => if r = 0 then a else b, fun _ => c, fun d hd => (exTwo 0 1 1 (by decide) d hd).1,
    fun g hg => hacc 2 1 (by decide) g hg 0 (by decide), rfl, fun r hr i hi => (h₁ r hr i hi).1, ?_, fun r hr i hi => (h₂ r hr i hi).1, ?_, ?_⟩
  · intro r hr
    match r, hr with
    | 0, _ => exact ⟨a1, by simp [a2]⟩
    | 1, _ => exact ⟨b1, by simp [b2]⟩
  · intro r hr
    match r, hr with
    | 0, _ => exact ⟨c1, by simp [c2]⟩
  · obtain ⟨st, e⟩ := (h₁ 0 (by decide) 0 (by decide)).2
    have va := first_content (h₁ 0 (by decide) 0 (by decide)).1 e (n := 40) (c := 1042) (by decide +kernel)
    obtain ⟨st, e⟩ := (h₁ 1 (by decide) 0 (by decide)).2
    have vb := first_content (h₁ 1 (by decide) 0 (by decide)).1 e (n := 40) (c := 1050) (by decide +kernel)
    obtain ⟨st, e⟩ := (h₂ 0 (by decide) 0 (by decide)).2
    have vc := first_content (h₂ 0 (by decide) 0 (by decide)).1 e (n := 40) (c := 2042) (by decide +kernel)
    obtain ⟨st, e⟩ := (h₂ 0 (by decide) 1 (by decide)).2
    have vd := first_content (h₂ 0 (by decide) 1 (by decide)).1 e (n := 40) (c := 4050) (by decide +kernel)
    match a, b, c, a2, b2, c2, a3, b3, c3 with
    | [a0], [b0], [c0, c1], _, _, _, a3, b3, c3 =>
      have wa : a0.content = 1042 := (a3 0 (by simp)).trans va
      have wb : b0.content = 1050 := (b3 0 (by simp)).trans vb
      have wc : c0.content = 2042 := (c3 0 (by simp)).trans vc
      have wd : c1.content = 4050 := (c3 1 (by simp)).trans vd
      have e1 : globalBatch 2 1 0 (fun r => if r = 0 then [a0] else [b0]) = [1042, 1050] := by
        simp [globalBatch, Pipeline.step, List.range_succ, wa, wb]
      have e2 : globalBatch 1 2 0 (fun _ => [c0, c1]) = [2042, 4050] := by
        simp [globalBatch, Pipeline.step, List.range_succ, wc, wd]
      rw [e1, e2]
      intro hp
      have := hp.mem_iff (a := 1042)
      simp at this

theorem content_at {X : Except BErr (AnyDs Nat)} {A : AnyDs Nat} (hX : X = .ok A) {f : Nat → Smp Nat} (h : Loader.Stream A.D f) {n : Nat} {cs : List (Option Nat)} (hd : delivered X n = cs) (k c : Nat)
    (hk : cs[k]? = some (some c)) : (f k).content = c := by
  subst hX
  unfold delivered at hd
  dsimp only at hd
  have ht := A.D.eval_trace n A.D.init
  generalize A.D.eval n A.D.init = evs at hd ht
  obtain ⟨st, h0, h1⟩ := h (k + 1)
  rw [← h0] at ht
  have key : ∀ (j : Nat) (evs : List (Ev (Smp Nat))) (cs : List (Option Nat)), j ≤ k → A.D.Trace (st j) evs → (evs.map fun e => match e with | .item a => some a.content | _ => none) = cs →
      cs[k - j]? = some (some c) → (f k).content = c := by
    intro j
    induction hj : k - j generalizing j with
    | zero =>
      intro evs cs hle ht hd hk
      have : j = k := by omega
      subst this
      cases ht with
      | nil => subst hd; cases hk
      | item ho _ =>
        have := Obs.det ho (h1 j (by omega))
        cases this
        subst hd
        simpa using hk
      | fin ho _ => have := Obs.det ho (h1 j (by omega)); cases this
      | err ho => have := Obs.det ho (h1 j (by omega)); cases this
    | succ d ih =>
      intro evs cs hle ht hd hk
      cases ht with
      | nil => subst hd; cases hk
      | item ho ht =>
        have := Obs.det ho (h1 j (by omega))
        cases this
        subst hd
        exact ih (j + 1) (by omega) _ _ (by omega) ht rfl (by simpa using hk)
      | fin ho _ => have := Obs.det ho (h1 j (by omega)); cases this
      | err ho => have := Obs.det ho (h1 j (by omega)); cases this
  exact key 0 evs cs (by omega) ht hd hk

/-- **C109 is violated** by virtual epochs whose length is not a multiple of the number of workers of a rank: each epoch starts with the first worker again. Two workers in total, epochs of 3 batches on each rank, functions that do
not look at the sample index: the second global batch of 2 ranks with one worker each is not the one of a single rank with two workers. -/
theorem C109_violated_epochs : ∃ (E : Encoder Nat Nat) (ds : List (Disk Nat Nat)) (A₁ A₂ : Nat → Nat → AnyDs Nat) (l₁ l₂ : Nat → List (Smp Nat)),
    (∀ d ∈ ds, d.Ok) ∧ (∀ g < 2, ∃ A, workerDs (fun _ => exR) (fun _ _ => E) ds exO ⟨g, 2, 1⟩ 0 = .ok A ∧ A.D.Flows false) ∧
    (∀ r < 2, ∀ i < 1, workerDs (fun _ => exR) (fun _ _ => E) ds { exO with epochLength := 3 } ⟨r, 2, 1⟩ i = .ok (A₁ r i)) ∧ (∀ r < 2, Received 3 1 (rankDs .basic 1 A₁ r) (l₁ r) ∧ 2 ≤ (l₁ r).length) ∧
    (∀ r < 1, ∀ i < 2, workerDs (fun _ => exR) (fun _ _ => E) ds { exO with epochLength := 3 } ⟨r, 1, 2⟩ i = .ok (A₂ r i)) ∧ (∀ r < 1, Received 3 2 (rankDs .basic 2 A₂ r) (l₂ r) ∧ 4 ≤ (l₂ r).length) ∧
    ¬ (globalBatch 2 1 1 l₁).Perm (globalBatch 1 2 1 l₂) := by
  have hacc : ∀ g < 2, ∃ A, workerDs (fun _ => exR) (fun _ _ => exE) [exDisk "a" 10 4, exDisk "b" 100 6] exO ⟨g, 2, 1⟩ 0 = .ok A ∧ A.D.Flows false := fun g hg =>
    C109_accepting (fun _ => exR) (fun _ _ => exE) _ exO 2 1 (by simp)
      (fun d hd => ⟨(exTwo 0 2 1 (by decide) d hd).1, fun r => (exTwo r 2 1 (by decide) d hd).2.1, (exTwo 0 2 1 (by decide) d hd).2.2⟩)
      (fun _ _ => ⟨by simp [exE], by simp [exE, UserMap.Accepts], by simp [exE], by simp [exE], by
        intro n hn
        cases hn
        exact ⟨by decide, fun _ _ => ⟨_, rfl⟩⟩, by simp [exO]⟩) (fun _ _ => ⟨by simp [exO], by simp [exO]⟩) g hg 0 (by decide)
  obtain ⟨f, hf, hr⟩ := C109_rank (fun _ => exR) (fun _ _ => exE) (fun _ _ _ => rfl) [exDisk "a" 10 4, exDisk "b" 100 6] (fun d hd => (exTwo 0 1 1 (by decide) d hd).1) exO 2 (by decide) hacc
  have hrun : ∀ W n, W * max 1 n = 2 → ∃ (A : Nat → Nat → AnyDs Nat) (l : Nat → List (Smp Nat)),
      (∀ r < W, ∀ i < max 1 n, workerDs (fun _ => exR) (fun _ _ => exE) [exDisk "a" 10 4, exDisk "b" 100 6] { exO with epochLength := 3 } ⟨r, W, n⟩ i = .ok (A r i)) ∧
      ∀ r < W, Received 3 n (rankDs .basic n A r) (l r) ∧ 4 ≤ (l r).length ∧
        ∀ q (hq : q < (l r).length), (l r)[q].content = (f (r * max 1 n + (turn 3 (max 1 n) q).1) (turn 3 (max 1 n) q).2).content := by
    intro W n hW
    have h : ∀ r i, ∃ A, r < W → i < max 1 n → workerDs (fun _ => exR) (fun _ _ => exE) [exDisk "a" 10 4, exDisk "b" 100 6] { exO with epochLength := 3 } ⟨r, W, n⟩ i = .ok A := by
      intro r i
      by_cases hi : r < W ∧ i < max 1 n
      · obtain ⟨A, h⟩ := (hr W n 3 hW r hi.1).1 i hi.2
        exact ⟨A, fun _ _ => h⟩
      · obtain ⟨A, _⟩ := hacc 0 (by decide)
        exact ⟨A, fun h h' => absurd ⟨h, h'⟩ hi⟩
    choose A hA using h
    have h : ∀ r, ∃ l, r < W → Received 3 n (rankDs .basic n A r) l ∧ 4 ≤ l.length := by
      intro r
      by_cases hi : r < W
      · obtain ⟨l, h⟩ := ((hr W n 3 hW r hi).2 (A r) (fun i hi' => hA r i hi hi') .basic).1 4
        exact ⟨l, fun _ => h⟩
      · exact ⟨[], fun h => absurd h hi⟩
    choose l hl using h
    exact ⟨A, l, fun r hr' i hi => hA r i hr' hi, fun r hr' => ⟨(hl r hr').1, (hl r hr').2, ((hr W n 3 hW r hr').2 (A r) (fun i hi' => hA r i hr' hi') .basic).2 _ (hl r hr').1⟩⟩
  obtain ⟨A₁, l₁, a1, a2⟩ := hrun 2 1 rfl
  obtain ⟨A₂, l₂, b1, b2⟩ := hrun 1 2 rfl
  refine ⟨exE, _, A₁, A₂, l₁, l₂, fun d hd => (exTwo 0 1 1 (by decide) d hd).1, hacc, a1, fun r hr => ⟨(a2 r hr).1, by have := (a2 r hr).2.1; omega⟩, b1, fun r hr => ⟨(b2 r hr).1, (b2 r hr).2.1⟩, ?_⟩
  have val : ∀ g < 2, ∀ (cs : List (Option Nat)), delivered (workerDs (fun _ => exR) (fun _ _ => exE) [exDisk "a" 10 4, exDisk "b" 100 6] exO ⟨g, 2, 1⟩ 0) 100 = cs →
      ∀ k c, cs[k]? = some (some c) → (f g k).content = c := by
    intro g hg cs hcs k c hk
    obtain ⟨A, h1, _⟩ := hacc g hg
    exact content_at h1 (hf g hg A h1) hcs k c hk
  have v0 := val 0 (by decide) [some 42, some 220, some 404, some 222, some 44] (by decide +kernel)
  have v1 := val 1 (by decide) [some 50, some 230, some 416, some 232, some 52] (by decide +kernel)
  have get : ∀ (l : List (Smp Nat)) (a b : Nat), (h : a + b ≤ l.length) → ∀ c : Nat → Nat, (∀ q (hq : q < l.length), a ≤ q → q < a + b → l[q].content = c q) →
      ((l.drop a).take b).map (·.content) = (List.range b).map fun q => c (a + q) := by
    intro l a b h c hc
    apply List.ext_getElem
    · simp; omega
    · intro q h1 h2
      simp only [List.length_map, List.length_range] at h2
      simp only [List.getElem_map, List.getElem_take, List.getElem_drop, List.getElem_range]
      exact hc (a + q) (by omega) (by omega) (by omega)
  have e1 : globalBatch 2 1 1 l₁ = [220, 230] := by
    have g0 := get (l₁ 0) 1 1 (by have := (a2 0 (by decide)).2.1; omega) (fun _ => 220) (fun q hq h1 h2 => by
      rw [(a2 0 (by decide)).2.2 q hq, show q = 1 by omega]
      exact v0 1 220 rfl)
    have g1 := get (l₁ 1) 1 1 (by have := (a2 1 (by decide)).2.1; omega) (fun _ => 230) (fun q hq h1 h2 => by
      rw [(a2 1 (by decide)).2.2 q hq, show q = 1 by omega]
      exact v1 1 230 rfl)
    simp only [globalBatch, Pipeline.step, List.range_succ, List.range_zero, List.nil_append, List.cons_append, List.flatMap_cons, List.flatMap_nil, List.append_nil, Nat.one_mul]
    rw [g0, g1]
    rfl
  have e2 : globalBatch 1 2 1 l₂ = [220, 404] := by
    have g0 := get (l₂ 0) 2 2 (b2 0 (by decide)).2.1 (fun q => if q = 2 then 220 else 404) (fun q hq h1 h2 => by
      rw [(b2 0 (by decide)).2.2 q hq]
      have : q = 2 ∨ q = 3 := by omega
      rcases this with rfl | rfl
      · exact v0 1 220 rfl
      · exact v0 2 404 rfl)
    simp only [globalBatch, Pipeline.step, List.range_succ, List.range_zero, List.nil_append, List.flatMap_cons, List.flatMap_nil, List.append_nil, Nat.one_mul]
    rw [g0]
    rfl
  rw [e1, e2]
  intro hp
  have := hp.mem_iff (a := 404)
  simp at this

end Verif.Pipeline
