import Verif.Pipeline.Progress
import Verif.Loader.WorkerProps
import Verif.Pipeline.TrainContent
import Verif.Pipeline.Example

/-! # C78: the training loader as a whole: sharding, datasets in all workers, worker processes, saving and restoring -/

namespace Verif.Pipeline

open Verif.Stream Verif.Wds Verif.Loader

variable {B C K ρ : Type}

/-- The datasets `A 0, A 1, ...` of the workers, with one type for the states of all of them. This is only packaging. -/
def bundle (A : Nat → AnyDs C) (w : Nat) : Dataset (Σ v, (A v).σ) (Smp C) (Σ v, (A v).κ) :=
  { init := ⟨w, (A w).D.init⟩
    step := fun s => ((A s.1).D.step s.2).mapS (fun t => ⟨s.1, t⟩)
    save := fun s => ⟨s.1, (A s.1).D.save s.2⟩
    resume := fun k => ⟨k.1, (A k.1).D.resume k.2⟩
    reset := fun s => ⟨s.1, (A s.1).D.reset s.2⟩
    restoreSample := (A w).D.restoreSample
    hasSamples := (A w).D.hasSamples }

section
variable {A : Nat → AnyDs C} {w : Nat}

theorem bundle_obs_of {v : Nat} {s : (A v).σ} {o : Out (A v).σ (Smp C)} (h : Obs (A v).D.step s o) :
    Obs (bundle A w).step ⟨v, s⟩ (o.mapS (fun t => ⟨v, t⟩)) := by
  induction h with
  | item h => exact .item (by simp only [bundle, h, Step.mapS])
  | fin h => exact .fin (by simp only [bundle, h, Step.mapS])
  | err h => exact .err (by simp only [bundle, h, Step.mapS])
  | skip h _ ih => exact .skip (by simp only [bundle, h, Step.mapS]) ih

theorem bundle_obs_inv {p : Σ v, (A v).σ} {o : Out (Σ v, (A v).σ) (Smp C)} (h : Obs (bundle A w).step p o) :
    ∃ o', Obs (A p.1).D.step p.2 o' ∧ o = o'.mapS (fun t => ⟨p.1, t⟩) := by
  induction h with
  | @item p a q h =>
    simp only [bundle] at h
    cases hs : (A p.1).D.step p.2 <;> rw [hs] at h <;> cases h
    exact ⟨_, .item hs, rfl⟩
  | @fin p q h =>
    simp only [bundle] at h
    cases hs : (A p.1).D.step p.2 <;> rw [hs] at h <;> cases h
    exact ⟨_, .fin hs, rfl⟩
  | @err p h =>
    simp only [bundle] at h
    cases hs : (A p.1).D.step p.2 <;> rw [hs] at h <;> cases h
    exact ⟨_, .err hs, rfl⟩
  | @skip p q o h _ ih =>
    simp only [bundle] at h
    cases hs : (A p.1).D.step p.2 <;> rw [hs] at h <;> cases h
    obtain ⟨o', h1, h2⟩ := ih
    exact ⟨o', .skip hs h1, h2⟩

theorem bundle_equiv {v : Nat} {s t : (A v).σ} (h : (A v).D.Equiv s t) : (bundle A w).Equiv ⟨v, s⟩ ⟨v, t⟩ := by
  have hsim : ∀ v, Sim (bundle A w).step (bundle A w).step (fun p q => ∃ s t, p = ⟨v, s⟩ ∧ q = ⟨v, t⟩ ∧ (A v).D.Equiv s t) := by
    rintro v _ _ ⟨s, t, rfl, rfl, h⟩ o ho
    obtain ⟨o1, h1, rfl⟩ := bundle_obs_inv ho
    obtain ⟨o2, h2, h3⟩ := Dataset.Equiv.sim _ _ h _ h1
    refine ⟨_, bundle_obs_of h2, ?_⟩
    cases h3 with
    | item h3 => exact .item ⟨_, _, rfl, rfl, h3⟩
    | fin h3 => exact .fin ⟨_, _, rfl, rfl, h3⟩
    | err => exact .err
  intro evs
  exact ⟨fun ht => Dataset.Trace.sim (hsim v) ⟨s, t, rfl, rfl, h⟩ ht, fun ht => Dataset.Trace.sim (hsim v) ⟨t, s, rfl, rfl, h.symm⟩ ht⟩

theorem bundle_paused {r : Bool} {p : Σ v, (A v).σ} (h : (bundle A w).Paused r p) : ∃ s, p = ⟨w, s⟩ ∧ (A w).D.Paused r s := by
  induction h with
  | init => exact ⟨_, rfl, .init⟩
  | item _ ho ih =>
    obtain ⟨s, rfl, hs⟩ := ih
    obtain ⟨o, h1, h2⟩ := bundle_obs_inv ho
    cases o <;> cases h2
    exact ⟨_, rfl, .item hs h1⟩
  | fin _ ho ih =>
    obtain ⟨s, rfl, hs⟩ := ih
    obtain ⟨o, h1, h2⟩ := bundle_obs_inv ho
    cases o <;> cases h2
    exact ⟨_, rfl, .fin hs h1⟩
  | resume _ ih =>
    obtain ⟨s, rfl, hs⟩ := ih
    exact ⟨_, rfl, .resume hs⟩
  | reset hr _ ih =>
    obtain ⟨s, rfl, hs⟩ := ih
    exact ⟨_, rfl, .reset hr hs⟩

theorem bundle_resumes (h : (A w).D.ResumesExactly) : (bundle A w).ResumesExactly := by
  intro p hp
  obtain ⟨s, rfl, hs⟩ := bundle_paused hp
  exact bundle_equiv (h s hs)

theorem bundle_stream {f : Nat → Smp C} (h : Loader.Stream (A w).D f) : Loader.Stream (bundle A w) f := by
  intro N
  obtain ⟨st, h1, h2⟩ := h N
  exact ⟨fun j => ⟨w, st j⟩, by rw [h1]; rfl, fun j hj => bundle_obs_of (h2 j hj)⟩

end

/-- A dataset without end that makes progress delivers an infinite stream of samples. -/
theorem stream_of_flows {σ κ : Type} {D : Dataset σ (Smp C) κ} (h : D.Flows false) : ∃ f, Loader.Stream D f := by
  have hstep : ∀ s : {s // ∃ evs, D.Run D.init evs s}, ∃ (a : Smp C) (t : {s // ∃ evs, D.Run D.init evs s}), Obs D.step s.1 (.item a t.1) := by
    rintro ⟨s, hs⟩
    rcases h.step hs with ⟨a, t, h1, h2⟩ | ⟨he, _⟩
    · exact ⟨a, ⟨t, h2⟩, h1⟩
    · cases he
  choose fa ft hft using hstep
  let st : Nat → {s // ∃ evs, D.Run D.init evs s} := Nat.rec ⟨D.init, _, .nil⟩ (fun _ s => ft s)
  exact ⟨fun j => fa (st j), fun N => ⟨fun j => (st j).1, rfl, fun j _ => hft (st j)⟩⟩

/-- Two runs of a worker of the same length are the same. -/
theorem Outs.det {σ κ : Type} {D : Dataset σ (Smp C) κ} {cfg : Loader.Cfg} {gid : Nat} {u p q : σ × WAttr κ} {xs ys : List (Nat × Smp C)}
    (h : Outs D cfg gid u xs p) (h' : Outs D cfg gid u ys q) (hl : xs.length = ys.length) : xs = ys ∧ p = q := by
  induction h generalizing ys q with
  | nil =>
    cases h' with
    | nil => exact ⟨rfl, rfl⟩
    | next => simp at hl
  | next _ ho ih =>
    cases h' with
    | nil => simp at hl
    | next h2 ho2 =>
      obtain ⟨rfl, rfl⟩ := ih h2 (by simpa using hl)
      cases ho.det ho2
      exact ⟨rfl, rfl⟩

/-- C36 (part): in these circumstances the workers can run: each answers every request with a sample. -/
theorem C36_workers_answer {σ κ : Type} {n rank : Nat} (hn : 0 < n) {D : Nat → Dataset σ (Smp C) κ} {ok : Nat → Prop}
    (hD : ∀ w < n, (D w).ResumesExactly) {f : Nat → Nat → Smp C} (hf : ∀ w < n, Loader.Stream (D w) (f w))
    {us : Nat → σ × WAttr κ} {cs : Nat → Nat} {off : Nat} (h : LInc n rank D ok us cs off) {cfg : Nat → Loader.Cfg}
    (hcfg : ∀ w < n, 2 ≤ (cfg w).keep ∧ 2 * n ≤ (cfg w).minN) :
    ∃ S g, Life n rank D us off cfg S g (Loader.start (Got C) n) := by
  obtain ⟨_, hinc⟩ := h.inc hn hD hf
  have key : ∀ w, w < n → ∃ (S : Nat → σ × WAttr κ) (g : Nat → Nat × Smp C), S 0 = us w ∧
      ∀ i, Obs (wstep (D w) (cfg w) (rank * n + w)) (S i) (.item (g i) (S (i + 1))) := by
    intro w hw
    obtain ⟨N, hi⟩ := hinc w hw
    have hex : ∀ m, ∃ p, Outs (D w) (cfg w) (rank * n + w) (us w)
        ((List.range m).map fun j => (cs w + j, (f w (cs w + j)).addKey (loaderKey (rank * n + w) (cs w + j)))) p := by
      intro m
      exact C36_worker_exact_partial (hD w hw) (hf w hw (N + (cs w + m))) (hi.mono (by omega)) (hcfg w hw).1 (hcfg w hw).2 m (by omega)
    choose S hS using hex
    refine ⟨S, fun j => (cs w + j, (f w (cs w + j)).addKey (loaderKey (rank * n + w) (cs w + j))), ?_, ?_⟩
    · exact ((Outs.det (hS 0) .nil rfl).2)
    · intro i
      have h1 := hS (i + 1)
      rw [List.range_succ, List.map_append] at h1
      generalize hxs : (List.range i).map (fun j => (cs w + j, (f w (cs w + j)).addKey (loaderKey (rank * n + w) (cs w + j)))) ++
        List.map (fun j => (cs w + j, (f w (cs w + j)).addKey (loaderKey (rank * n + w) (cs w + j)))) [i] = xs at h1
      generalize hp : S (i + 1) = p at h1
      cases h1 with
      | nil => simp at hxs
      | @next ys p' b q h2 h3 =>
        simp only [List.map_cons, List.map_nil] at hxs
        obtain ⟨e1, e2⟩ := List.append_inj' hxs rfl
        cases e2
        have := (Outs.det (hS i) h2 (by rw [← e1])).2
        rw [this]
        exact h3
  have key' : ∀ w, ∃ (S : Nat → σ × WAttr κ) (g : Nat → Nat × Smp C), w < n → S 0 = us w ∧
      ∀ i, Obs (wstep (D w) (cfg w) (rank * n + w)) (S i) (.item (g i) (S (i + 1))) := by
    intro w
    by_cases hw : w < n
    · obtain ⟨S, g, h1⟩ := key w hw
      exact ⟨S, g, fun _ => h1⟩
    · exact ⟨fun _ => us w, fun _ => (0, f 0 0), fun h => absurd h hw⟩
  choose S g hSg using key'
  exact ⟨S, g, ⟨fun w hw => (hSg w hw).1, fun w hw => (hSg w hw).2, .start⟩⟩

/-- What the datasets of the workers of a training loader have in common. -/
theorem train_workers [DecidableEq K] (R : Nat → Rngs ρ) (E : Encoder C K) (ds : List (Disk B C)) (o : TrainOpts) (w : Sharder.WorkerConfig)
    (hne : ds ≠ []) (hds : ∀ d ∈ ds, d.Ok ∧ d.Enough w ∧ d.Loads) (hr : w.rank < w.worldSize) (ho : o.epochLength = 0)
    (hE : E.Accepts o.batchSize o.packing) (hS : E.Simple o.packing) (hF : E.Fits o.batchSize o.packing) :
    ∃ (A : Nat → AnyDs C) (f : Nat → Nat → Smp C), ∀ i < w.workers,
      trainDs (R i) E ds o w i = .ok (A i) ∧ Loader.Stream (A i).D (f i) ∧ (A i).D.ResumesExactly := by
  have key : ∀ i, ∃ (A : AnyDs C) (f : Nat → Smp C), i < w.workers → trainDs (R i) E ds o w i = .ok A ∧ Loader.Stream A.D f ∧ A.D.ResumesExactly := by
    have h0 : 0 < w.workers := by unfold Sharder.WorkerConfig.workers; omega
    have some : ∀ i < w.workers, ∃ (A : AnyDs C) (f : Nat → Smp C), trainDs (R i) E ds o w i = .ok A ∧ Loader.Stream A.D f ∧ A.D.ResumesExactly := by
      intro i hi
      obtain ⟨A, h1, h2⟩ := C77_train_flows (R i) E ds o w i hne hds hr hi hE hF
      obtain ⟨A', h3, _, h4⟩ := C65_train_resumes_partial (R i) E ds o w i hne (fun d hd => ⟨(hds d hd).1, (hds d hd).2.1⟩) hr hi hS hF
      rw [h1] at h3
      cases h3
      have hfl : A.D.Flows false := by
        intro evs s hrun
        rcases h2 evs s hrun with h | ⟨h, _⟩
        · exact .inl h
        · omega
      obtain ⟨f, hf⟩ := stream_of_flows hfl
      exact ⟨A, f, h1, hf, h4 ho⟩
    intro i
    by_cases hi : i < w.workers
    · obtain ⟨A, f, h⟩ := some i hi
      exact ⟨A, f, fun _ => h⟩
    · obtain ⟨A, f, _⟩ := some 0 h0
      exact ⟨A, f, fun h => absurd h hi⟩
  choose A f h using key
  exact ⟨A, f, h⟩

/-- **C78.** The training loader as a whole. For any datasets, worker configuration with `n > 0` workers, task encoder (without generator functions and grouping) that accepts all samples, without virtual epochs: there are
infinite sequences `f i` of samples (batches), the uninterrupted runs of the datasets built for the workers, such that, after any number of saves and restores of the loader (each at any point after every worker
has delivered something), for any schedules and timers:

- the worker processes answer every request of the main process, so that (`C35_progress`, `C35_next_returns`) `next` always returns;
- the samples delivered, up to any point in time, are round robin over the processes exactly the continuations of these sequences;
- with one or two workers they are exactly the rest of the uninterrupted run of the loader;
- the state can be saved, if every worker has delivered something. -/
theorem C78_training_loader_partial [DecidableEq K] (R : Nat → Rngs ρ) (E : Encoder C K) (ds : List (Disk B C)) (o : TrainOpts) (w : Sharder.WorkerConfig)
    (hne : ds ≠ []) (hds : ∀ d ∈ ds, d.Ok ∧ d.Enough w ∧ d.Loads) (hr : w.rank < w.worldSize) (ho : o.epochLength = 0)
    (hE : E.Accepts o.batchSize o.packing) (hS : E.Simple o.packing) (hF : E.Fits o.batchSize o.packing) (hn : 0 < w.numWorkers) :
    ∃ (A : Nat → AnyDs C) (f : Nat → Nat → Smp C),
      (∀ i < w.numWorkers, trainDs (R i) E ds o w i = .ok (A i) ∧ Loader.Stream (A i).D (f i)) ∧
      ∀ us cs off, LInc w.numWorkers w.rank (bundle A) (fun _ => True) us cs off →
        ∀ cfg : Nat → Loader.Cfg, (∀ i < w.numWorkers, 2 ≤ (cfg i).keep ∧ 2 * w.numWorkers ≤ (cfg i).minN) →
          (∃ S g, Life w.numWorkers w.rank (bundle A) us off cfg S g (Loader.start (Got C) w.numWorkers)) ∧
          ∀ S g s, Life w.numWorkers w.rank (bundle A) us off cfg S g s →
            (got s = (List.range (got s).length).map fun q =>
              let v := logical w.numWorkers off (q % w.numWorkers)
              ⟨v, cs v + q / w.numWorkers, (f v (cs v + q / w.numWorkers)).addKey (loaderKey (w.rank * w.numWorkers + v) (cs v + q / w.numWorkers))⟩) ∧
            (w.numWorkers ≤ 2 → got s = (List.range (got s).length).map fun q => uninterrupted w.numWorkers w.rank f (((List.range w.numWorkers).map cs).sum + q)) ∧
            ((∀ i < w.numWorkers, 0 < deliveredFrom s i) →
              ∃ k, saveLoader w.numWorkers (fun i => (S i (s.procs (process w.numWorkers off i)).made).2) (got s) = some k) := by
  obtain ⟨A, f, h⟩ := train_workers R E ds o w hne hds hr ho hE hS hF
  have hw : ∀ i < w.numWorkers, i < w.workers := by intro i hi; unfold Sharder.WorkerConfig.workers; omega
  have hD : ∀ i < w.numWorkers, (bundle A i).ResumesExactly := fun i hi => bundle_resumes (h i (hw i hi)).2.2
  have hf : ∀ i < w.numWorkers, Loader.Stream (bundle A i) (f i) := fun i hi => bundle_stream (h i (hw i hi)).2.1
  refine ⟨A, f, fun i hi => ⟨(h i (hw i hi)).1, (h i (hw i hi)).2.1⟩, ?_⟩
  intro us cs off hl cfg hcfg
  refine ⟨C36_workers_answer hn hD hf hl hcfg, ?_⟩
  intro S g s hlife
  exact ⟨C36_loader_streams_partial hn hD hf hl hcfg hlife, fun h2 => C36_two_workers_partial hn h2 hD hf hl hcfg hlife,
    fun hpos => C36_save_possible_partial hn hD hf hl hcfg hlife hpos⟩

/-- An uninterrupted run is a history. -/
theorem history_of_run {σ κ α : Type} {D : Dataset σ α κ} {evs : List (Ev α)} {s : σ} (h : D.Run D.init evs s) : D.History evs s := by
  have key : ∀ {s t : σ} {evs : List (Ev α)}, D.Run s evs t → ∀ evs0, D.History evs0 s → D.History (evs0 ++ evs) t := by
    intro s t evs h
    induction h with
    | nil => intro evs0 h0; simpa using h0
    | item ho _ ih => intro evs0 h0; simpa using ih _ (.item h0 ho)
    | fin ho _ ih => intro evs0 h0; simpa using ih _ (.fin h0 ho)
  simpa using key h [] .init

/-- The run of a stream. -/
theorem run_of_stream {σ κ : Type} {D : Dataset σ (Smp C) κ} {f : Nat → Smp C} (h : Loader.Stream D f) (N : Nat) :
    ∃ s, D.Run D.init (((List.range N).map f).map .item) s := by
  obtain ⟨st, h1, h2⟩ := h N
  refine ⟨st N, ?_⟩
  have key : ∀ m ≤ N, D.Run D.init (((List.range m).map f).map .item) (st m) := by
    intro m hm
    induction m with
    | zero => rw [h1]; exact .nil
    | succ m ih =>
      rw [List.range_succ, List.map_append, List.map_append]
      exact (ih (by omega)).append (.item (h2 m hm) .nil)
  exact key N (Nat.le_refl _)

/-- **C78, contents.** What the sequences of C78 consist of: the first `N` samples (batches) of worker `i` are made (as in C69) from a sequence of raw samples of the share of this worker, in which without replacement
every sample occurs as often as the others after each round; fewer samples than the size of the shuffle buffer are left over. -/
theorem C78_contents_partial [DecidableEq K] (R : Rngs ρ) (E : Encoder C K) (ds : List (Disk B C)) (o : TrainOpts) (w : Sharder.WorkerConfig) (i : Nat)
    (hne : ds ≠ []) (hds : ∀ d ∈ ds, d.Ok ∧ d.Counted ∧ d.Enough w) (hr : w.rank < w.worldSize) (hi : i < w.workers)
    (hb : ∀ n, o.batchSize = some n → 0 < n) (hF : E.Fits o.batchSize o.packing)
    (load : Disk B C → Raw B → Option C) (hload : ∀ d ∈ ds, Computes d.load (load d)) (F : Fns C K) (hE : E.Is F o.batchSize o.packing)
    (A : AnyDs C) (hA : trainDs R E ds o w i = .ok A) (f : Nat → Smp C) (hf : Loader.Stream A.D f) (N : Nat) :
    MadeFrom ds o w i load F E.group.isSome (((List.range N).map f).map (·.content)) := by
  obtain ⟨A', h1, h2⟩ := C69_uninterrupted_partial R E ds o w i hne hds hr hi hb hF load hload F hE
  rw [hA] at h1
  cases h1
  obtain ⟨s, hs⟩ := run_of_stream hf N
  have := h2 _ _ hs
  rw [Dataset.itemsOf_map] at this
  exact this

/-! ### A case -/

theorem exTarN_groups : ∀ n ≤ 6, ∀ first ∈ [10, 100], (groups (entries (exTarN first n))).length = n := by decide +kernel

/-- Two datasets with 4 and 6 samples and 2 workers meet all the hypotheses. -/
example : ∃ (A : Nat → AnyDs Nat) (f : Nat → Nat → Smp Nat),
    ∀ i < 2, trainDs exR exE [exDisk "a" 10 4, exDisk "b" 100 6] exO ⟨0, 1, 2⟩ i = .ok (A i) ∧ Loader.Stream (A i).D (f i) := by
  have hl : ∀ (name : String) (first n : Nat), first ∈ [10, 100] → n ≤ 6 → (exDisk name first n).Loads := by
    intro name first n h1 h2
    refine ⟨?_, fun _ _ => ⟨_, rfl⟩, ?_⟩
    · intro s hs
      simp only [exDisk, List.mem_singleton] at hs
      subst hs
      simp only [exDisk, if_true]
      exact exTarN_groups n h2 first h1
    · intro n hn
      simp only [exDisk] at hn
      cases hn
      decide
  have hds : ∀ d ∈ [exDisk "a" 10 4, exDisk "b" 100 6], d.Ok ∧ d.Enough ⟨0, 1, 2⟩ ∧ d.Loads := by
    intro d hd
    simp only [List.mem_cons, List.not_mem_nil, or_false] at hd
    rcases hd with rfl | rfl
    · exact ⟨exDisk_ok _ _ _ (by decide), by unfold Disk.Enough; decide, hl _ _ _ (by decide) (by decide)⟩
    · exact ⟨exDisk_ok _ _ _ (by decide), by unfold Disk.Enough; decide, hl _ _ _ (by decide) (by decide)⟩
  have hE : exE.Accepts exO.batchSize exO.packing :=
    ⟨by simp [exE], by simp [exE, UserMap.Accepts], by simp [exE], by simp [exE], by
      intro n hn
      cases hn
      exact ⟨by decide, fun _ _ => ⟨_, rfl⟩⟩, by simp [exO]⟩
  obtain ⟨A, f, h, _⟩ := C78_training_loader_partial (fun _ => exR) exE [exDisk "a" 10 4, exDisk "b" 100 6] exO ⟨0, 1, 2⟩ (by simp) hds (by decide) rfl hE
    ⟨by simp [exE], by simp [exE, UserMap.Plain], by simp [exE], rfl, by simp [exO]⟩ ⟨by simp [exO], by simp [exO]⟩ (by decide)
  exact ⟨A, f, h⟩

end Verif.Pipeline
