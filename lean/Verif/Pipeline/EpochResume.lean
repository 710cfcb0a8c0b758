import Verif.Pipeline.TrainEpochs
import Verif.Loader.EpochResume

/-!
# C122: saving and resuming training with virtual epochs

The datasets of the workers, as `get_train_dataset` builds them with `virtual_epoch_length` (/repo src/megatron/energon/task_encoder/base.py:484-555, wrappers/epochize_dataset.py:20-112, wrappers/log_sample_dataset.py:51-60), meet the
hypotheses of `Verif.Loader.EpochResume`.
-/

namespace Verif.Pipeline

open Verif.Stream Verif.Loader

variable {B C K ρ : Type} {σ κ : Type}

/-! ### Specification -/

/-- With a share of `m` samples per epoch, an epoch ends behind the first `m`, `2 * m`, ... samples. -/
def epochEnds (m j : Nat) : Bool := decide (0 < j ∧ j % m = 0)

/-! ### Proofs -/

/-- Inside an epoch no end is reported. -/
theorem epochize_no_fin {D : Dataset σ (Smp C) κ} {len : Nat} {rs : List Key → Option (Smp C)} {has : Bool} {s : σ} {x : EpoX (Smp C)} {o : Out (σ × EpoX (Smp C)) (Smp C)}
    (h : WObs (Source.single D) (epochizeW len rs has) s x o)
    (hx : match x.ctl with | .start => x.off < len | .next i => i < len | _ => True) : ∀ p, o ≠ .fin p := by
  induction h with
  | emit => intro p e; cases e
  | halt h =>
    rename_i s x x'
    obtain ⟨n, c⟩ := x
    cases c with
    | start => simp only at hx; simp only [epochizeW, if_pos hx] at h; cases h
    | next i => simp only at hx; simp only [epochizeW, if_pos hx] at h; cases h
    | pulling i => simp [epochizeW] at h
    | got a i => simp [epochizeW] at h
  | raise h => intro p e; cases e
  | tau h _ ih =>
    rename_i s x x' o _
    obtain ⟨n, c⟩ := x
    cases c with
    | start =>
      simp only at hx
      simp only [epochizeW, if_pos hx] at h
      cases h
      exact ih hx
    | next i =>
      simp only at hx
      simp only [epochizeW, if_pos hx] at h
      cases h
      exact ih trivial
    | pulling i => simp [epochizeW] at h
    | got a i => simp [epochizeW] at h
  | reset h _ ih => exact absurd h (epochize_noReset _ _)
  | pullItem h _ _ ih =>
    rename_i s x i f g a s' o _ _
    obtain ⟨n, c⟩ := x
    cases c with
    | start => simp only at hx; simp only [epochizeW, if_pos hx] at h; cases h
    | next i => simp only at hx; simp only [epochizeW, if_pos hx] at h; cases h
    | pulling i =>
      simp only [epochizeW, Act.pull.injEq] at h
      obtain ⟨_, rfl, rfl⟩ := h
      exact ih trivial
    | got a i => simp [epochizeW] at h
  | pullFin h _ _ ih =>
    rename_i s x i f g s' o _ _
    obtain ⟨n, c⟩ := x
    cases c with
    | start => simp only at hx; simp only [epochizeW, if_pos hx] at h; cases h
    | next i => simp only at hx; simp only [epochizeW, if_pos hx] at h; cases h
    | pulling i =>
      simp only [epochizeW, Act.pull.injEq] at h
      obtain ⟨_, rfl, rfl⟩ := h
      exact ih trivial
    | got a i => simp [epochizeW] at h
  | pullErr => intro p e; cases e

/-- Saved at the end of a virtual epoch, the dataset goes on with the next epoch. -/
theorem epochizeD_behind {D : Dataset σ (Smp C) κ} (hD : D.ResumesExactly) (length nw w : Nat) : ResumesBehindEnd (epochizeD D length nw w) := by
  rintro ⟨s, ⟨n, c⟩⟩ s' hp ho
  generalize hl : localShare length nw w = len at *
  simp only [epochizeD, hl] at *
  obtain ⟨h1, h2⟩ := epochize_paused hp
  have e2 : (wrap D (epochizeW len D.restoreSample D.hasSamples)).Equiv (s, ⟨n, .start⟩) (D.resume (D.save s), ⟨n, .start⟩) := wrap_equiv epochize_noReset (hD s h1) _
  have hno := epochize_no_fin (wrap_obs.1 ho)
  have hhalt : ∀ q, Obs (wrap D (epochizeW len D.restoreSample D.hasSamples)).step (s, ⟨n, c⟩) (.fin q) → s' = q := by
    intro q hq
    cases Obs.det ho hq
    rfl
  cases c with
  | start =>
    by_cases hn : n < len
    · exact absurd rfl (hno hn s')
    · rw [hhalt (s, ⟨n, .start⟩) (wrap_obs.2 (.halt (by simp only [epochizeW, hn, if_false])))]
      exact e2
  | next i =>
    by_cases hi : i < len
    · exact absurd rfl (hno hi s')
    · rw [hhalt (s, ⟨n, .start⟩) (wrap_obs.2 (.halt (by simp only [epochizeW, hi, if_false])))]
      exact e2
  | pulling i => exact absurd h2 id
  | got a i => exact absurd h2 id

/-- The passes of an endless dataset cut into virtual epochs -/
theorem Endless.passRun {D : Dataset σ (Smp C) κ} {f : Nat → Smp C} {st : Nat → σ} (h : Endless D f st) (length nw w : Nat) (hm : 0 < localShare length nw w) :
    ∃ st' fn', PassRun (epochizeD D length nw w) f (epochEnds (localShare length nw w)) st' fn' := by
  generalize hl : localShare length nw w = m at *
  have hmod : ∀ j, j % m < m := fun j => Nat.mod_lt _ hm
  have hsucc : ∀ j, (j + 1) % m = if j % m + 1 = m then 0 else j % m + 1 := by
    intro j
    have := hmod j
    rw [Nat.add_mod]
    split
    · next he =>
      rcases Nat.lt_or_ge 1 m with h1 | h1
      · rw [Nat.mod_eq_of_lt h1, he, Nat.mod_self]
      · have : m = 1 := by omega
        subst this
        exact Nat.mod_one _
    · rw [Nat.mod_eq_of_lt (a := 1) (by omega), Nat.mod_eq_of_lt (by omega)]
  refine ⟨fun j => (st j, if j = 0 then ⟨0, .start⟩ else ⟨j % m, .next (if j % m = 0 then m else j % m)⟩), fun j => (st j, ⟨0, .start⟩), ?_, ?_, ?_, ?_⟩
  · show (st 0, _) = (D.init, _)
    rw [h.1]
    rfl
  · rfl
  · intro j
    have hbegin : Obs (epochizeD D length nw w).step (st j, ⟨0, .start⟩) (.item (f j) (st (j + 1), ⟨1 % m, .next 1⟩)) := by
      have h0 : (epochizeD D length nw w).step (st j, ⟨0, .start⟩) = .skip (st j, ⟨0, .next 0⟩) := by
        simp only [epochizeD, wrap, wrapStep, epochizeW, hl, if_pos hm]
      have := epochize_next (length := length) (nw := nw) (w := w) (h.2 j) (idx := 0) (x := 0) (by rw [hl]; exact hm)
      rw [hl] at this
      exact .skip h0 this
    have hgo : j % m = 0 → (st (j + 1), (⟨1 % m, .next 1⟩ : EpoX (Smp C))) = (st (j + 1), if j + 1 = 0 then ⟨0, .start⟩ else ⟨(j + 1) % m, .next (if (j + 1) % m = 0 then m else (j + 1) % m)⟩) := by
      intro he
      rw [if_neg (by omega)]
      rcases Nat.lt_or_ge 1 m with h1 | h1
      · have e1 : (j + 1) % m = 1 := by rw [hsucc j, he, if_neg (by omega)]
        rw [e1, if_neg (by omega), Nat.mod_eq_of_lt h1]
      · have : m = 1 := by omega
        subst this
        simp only [Nat.mod_one, if_true]
    by_cases he : epochEnds m j = true
    · rw [if_pos he]
      simp only [epochEnds, decide_eq_true_eq] at he
      rw [← hgo he.2]
      exact hbegin
    · rw [if_neg he]
      simp only [epochEnds, decide_eq_true_eq] at he
      by_cases h0 : j = 0
      · rw [if_pos h0, ← hgo (by rw [h0]; exact Nat.zero_mod m)]
        exact hbegin
      · have hr : j % m ≠ 0 := fun e => he ⟨by omega, e⟩
        rw [if_neg h0, if_neg hr]
        have := epochize_next (length := length) (nw := nw) (w := w) (h.2 j) (idx := j % m) (x := j % m) (by rw [hl]; exact hmod j)
        rw [hl] at this
        have e : ((st (j + 1), if j + 1 = 0 then ⟨0, .start⟩ else ⟨(j + 1) % m, .next (if (j + 1) % m = 0 then m else (j + 1) % m)⟩) : σ × EpoX (Smp C)) =
            (st (j + 1), ⟨(j % m + 1) % m, .next (j % m + 1)⟩) := by
          have hlt := hmod j
          rw [if_neg (by omega)]
          by_cases hq : j % m + 1 = m
          · have e1 : (j + 1) % m = 0 := by rw [hsucc j, if_pos hq]
            rw [e1, if_pos rfl, hq, Nat.mod_self]
          · have e1 : (j + 1) % m = j % m + 1 := by rw [hsucc j, if_neg hq]
            rw [e1, if_neg (Nat.succ_ne_zero _), Nat.mod_eq_of_lt (show j % m + 1 < m by omega)]
        rw [e]
        exact this
  · intro j he
    simp only [epochEnds, decide_eq_true_eq] at he
    rw [if_neg (by omega), if_pos he.2, he.2]
    refine .fin ?_
    simp only [epochizeD, wrap, wrapStep, epochizeW, hl, Nat.lt_irrefl, if_false]

theorem PassRun.log {D : Dataset σ (Smp C) κ} {f : Nat → Smp C} {ends : Nat → Bool} {st fn : Nat → σ} (h : PassRun D f ends st fn) :
    PassRun (logD D) f ends (fun j => (st j, ⟨j, .loop⟩)) (fun j => (fn j, ⟨j, .loop⟩)) := by
  refine ⟨?_, h.zero, fun j => ?_, fun j he => wrap_obs.2 (.pullFin rfl (h.fin j he) (.halt rfl))⟩
  · show (st 0, _) = (D.init, _)
    rw [h.init]
    rfl
  · have hi := h.item j
    have e : (if ends j = true then ((fn j, ⟨j, .loop⟩) : σ × LoopX (Smp C)) else (st j, ⟨j, .loop⟩)) = (if ends j = true then fn j else st j, ⟨j, .loop⟩) := by split <;> rfl
    rw [e]
    exact obs_pull_item (src := Source.single D) (i := ()) rfl hi (.item rfl)

theorem unlog_fin {D : Dataset σ (Smp C) κ} {s : σ} {n : Nat} {p : σ × LoopX (Smp C)} (h : Obs (logD D).step (s, ⟨n, .loop⟩) (.fin p)) :
    ∃ s', Obs D.step s (.fin s') ∧ p = (s', ⟨n, .loop⟩) := by
  replace h := wrap_obs.1 h
  cases h with
  | halt h => simp [loopW] at h
  | tau h _ => simp [loopW] at h
  | reset h _ => simp [loopW] at h
  | pullItem h1 h2 h3 =>
    simp only [loopW, Act.pull.injEq] at h1
    obtain ⟨_, rfl, _⟩ := h1
    cases h3 with
    | halt h => simp [loopW] at h
    | tau h _ => simp [loopW] at h
    | reset h _ => simp [loopW] at h
    | pullItem h _ _ => simp [loopW] at h
    | pullFin h _ _ => simp [loopW] at h
  | pullFin h1 h2 h3 =>
    simp only [loopW, Act.pull.injEq] at h1
    obtain ⟨_, _, rfl⟩ := h1
    cases h3 with
    | halt h =>
      simp only [loopW, Act.halt.injEq] at h
      subst h
      exact ⟨_, h2, rfl⟩
    | tau h _ => simp [loopW] at h
    | reset h _ => simp [loopW] at h
    | pullItem h _ _ => simp [loopW] at h
    | pullFin h _ _ => simp [loopW] at h

theorem behind_log {D : Dataset σ (Smp C) κ} (h : ResumesBehindEnd D) : ResumesBehindEnd (logD D) := by
  rintro ⟨s, x⟩ s' hp ho
  obtain ⟨h1, h2⟩ := loopW_paused (body := fun _ (a : Smp C) => LoopRes.out a) (rs := D.restoreSample) (has := D.hasSamples) hp
  obtain ⟨n, c⟩ := x
  simp only at h2
  subst h2
  obtain ⟨t, h3, rfl⟩ := unlog_fin ho
  exact wrap_equiv loopW_noReset (h s t h1 h3) _

/-! ### The property -/

/-- The dataset of one worker with virtual epochs meets the hypotheses of `Verif.Loader.EpochResume`. -/
theorem train_passes [DecidableEq K] (R : Rngs ρ) (E : Encoder C K) (ds : List (Disk B C)) (o : TrainOpts) (w : Sharder.WorkerConfig) (i : Nat)
    (hne : ds ≠ []) (hds : ∀ d ∈ ds, d.Ok ∧ d.Enough w) (hr : w.rank < w.worldSize) (hi : i < w.workers) (hE : E.Simple o.packing) (hF : E.Fits o.batchSize o.packing)
    {A0 : AnyDs C} (h0 : trainDs R E ds { o with epochLength := 0 } w i = .ok A0) (hf : A0.D.Flows false) (hl : 0 < localShare o.epochLength w.numWorkers i) :
    ∃ (A : AnyDs C) (f : Nat → Smp C), trainDs R E ds o w i = .ok A ∧ Loader.Stream A0.D f ∧ A.D.ResumesUpToEnd ∧ ResumesBehindEnd A.D ∧
      ∃ st fn, PassRun A.D f (epochEnds (localShare o.epochLength w.numWorkers i)) st fn := by
  have hlen : 0 < o.epochLength := by
    by_contra h
    have h : o.epochLength = 0 := by omega
    rw [h] at hl
    unfold localShare at hl
    simp at hl
  obtain ⟨A1, h1, h2⟩ := trainSource_ok R hne hr hi hds
  have h3 := shuffleStage_ok R o.shuffleSize h2
  obtain ⟨A', h4⟩ := buildBatch_ok hF o.dropLast (mapStage E.encode (mapStage E.cook (shuffleStage R o.shuffleSize A1)))
  have h5 := (buildBatch_resumes hE o.dropLast (fun hs => mapStage_restores (hE.pack hs).2.1 (mapStage_restores (hE.pack hs).1 h3.restores))
    (mapStage_resumes hE.encode (mapStage_resumes hE.cook h3.resumes))
    (mapStage_endless hE.encode (mapStage_endless hE.cook h3.endless)) h4).1
  have e0 : A0 = logStage o.logging A' := by
    have : trainDs R E ds { o with epochLength := 0 } w i = .ok (logStage o.logging (epochStage 0 w.numWorkers i A')) := by simp only [trainDs, h1, h4]
    rw [h0] at this
    have e : epochStage 0 w.numWorkers i A' = A' := if_neg (by decide)
    rw [e] at this
    cases this
    rfl
  subst e0
  have e : epochStage o.epochLength w.numWorkers i A' = ⟨_, _, epochizeD A'.D o.epochLength w.numWorkers i⟩ := if_pos hlen
  have hT : trainDs R E ds o w i = .ok (logStage o.logging (epochStage o.epochLength w.numWorkers i A')) := by simp only [trainDs, h1, h4]
  rw [e] at hT
  have hup := C21_epochize_resumes_partial A'.D o.epochLength w.numWorkers i h5
  have hbe := epochizeD_behind h5 o.epochLength w.numWorkers i
  revert hf hT
  cases o.logging with
  | false =>
    intro hf hT
    obtain ⟨f, st, h7⟩ := endless_of_flows hf
    obtain ⟨st', fn', h8⟩ := h7.passRun o.epochLength w.numWorkers i hl
    exact ⟨_, f, hT, h7.stream, hup, hbe, st', fn', h8⟩
  | true =>
    intro hf hT
    obtain ⟨f, st, h7⟩ := endless_of_flows hf
    obtain ⟨st', fn', h8⟩ := h7.unlog.passRun o.epochLength w.numWorkers i hl
    exact ⟨_, f, hT, h7.stream, log_resumesUpToEnd hup, behind_log hbe, _, _, PassRun.log h8⟩

/-- **C122, training.** A worker process of a training loader with `virtual_epoch_length`, any datasets, worker configuration and task encoder (without generator functions and grouping; datasets with a sample for each worker; without
virtual epochs `next` always returns a batch), whose share `m` of the epoch is not 0. There is a sequence `f`, the uninterrupted endless run without virtual epochs, such that after any number of saves and restores, each in any epoch:

- the worker can answer any number of further batches, and whatever it answers, in any further epochs, are exactly the batches behind the `c` that have been delivered to the user, with consecutive numbers; the ends of the epochs are
reported exactly behind the batches `m`, `2 m`, ...: behind a restored state the current epoch has just the rest of its batches (but an end that was due when the state was saved is left out, `C36_violated_end`);
- the state can be saved at any time except when the worker has reached the end of an epoch and the user has not got all of its batches (then it can fail, `C37_violated_end`). -/
theorem C122_training_worker_partial [DecidableEq K] (R : Rngs ρ) (E : Encoder C K) (ds : List (Disk B C)) (o : TrainOpts) (w : Sharder.WorkerConfig) (i : Nat)
    (hne : ds ≠ []) (hds : ∀ d ∈ ds, d.Ok ∧ d.Enough w) (hr : w.rank < w.worldSize) (hi : i < w.workers) (hE : E.Simple o.packing) (hF : E.Fits o.batchSize o.packing)
    {A0 : AnyDs C} (h0 : trainDs R E ds { o with epochLength := 0 } w i = .ok A0) (hf : A0.D.Flows false) (hl : 0 < localShare o.epochLength w.numWorkers i) :
    ∃ (A : AnyDs C) (f : Nat → Smp C), trainDs R E ds o w i = .ok A ∧ Loader.Stream A0.D f ∧
      ∀ gid u c, IncP A.D gid u c → ∀ cfg : Loader.Cfg,
        (∀ m, ∃ p, Loader.Does A.D cfg gid u (eventsFrom f (epochEnds (localShare o.epochLength w.numWorkers i)) gid c m) p) ∧
        ∀ evs p, Loader.Does A.D cfg gid u evs p →
          (evs = eventsFrom f (epochEnds (localShare o.epochLength w.numWorkers i)) gid c (itemsOf evs).length ∨
            evs ++ [.fin] = eventsFrom f (epochEnds (localShare o.epochLength w.numWorkers i)) gid c (itemsOf evs).length) ∧
          ∀ M c', 2 ≤ cfg.keep → M ≤ cfg.minN → c < c' → c + (itemsOf evs).length ≤ c' + M → (∀ es, (es ++ [.fin]) <+: evs → c + (itemsOf es).length ≤ c') →
            (getCheckpoint p.2 (c' - 1)).isSome := by
  obtain ⟨A, f, h1, h2, h3, h4, st, fn, h5⟩ := train_passes R E ds o w i hne hds hr hi hE hF h0 hf hl
  refine ⟨A, f, h1, h2, fun gid u c hu cfg => ⟨fun m => C122_worker_goes_on h3 h4 h5 hu cfg m, fun evs p hd => ⟨C122_worker_exact h3 h4 h5 hu hd, ?_⟩⟩⟩
  intro M c' hk hm hc hM he
  exact C122_worker_saved_partial h3 h4 h5 hu hk hm hd hc hM he

/-! ### A case -/

theorem itemsOf_eventsFrom (f : Nat → Smp C) (ends : Nat → Bool) (gid c m : Nat) : (itemsOf (eventsFrom f ends gid c m)).length = m := by
  induction m with
  | zero => rfl
  | succ m ih =>
    rw [eventsFrom_succ, Dataset.itemsOf_append, List.length_append, ih]
    split <;> simp [itemsOf]

/-- Two datasets with 4 and 6 samples, 2 workers, virtual epochs of 5 batches (3 of them from worker 0): worker 0 is saved and restored when 4 of its batches have been delivered, in its second epoch. What it answers then: two batches, the
end of the epoch, and so on. -/
example : ∃ (A : AnyDs Nat) (f : Nat → Smp Nat) (u : A.σ × WAttr A.κ), trainDs exR exE [exDisk "a" 10 4, exDisk "b" 100 6] { exO with epochLength := 5 } ⟨0, 1, 2⟩ 0 = .ok A ∧ IncP A.D 0 u 4 ∧
    ∃ p, Loader.Does A.D ⟨4, 2, fun _ => true⟩ 0 u
      [.item (4, (f 4).addKey (loaderKey 0 4)), .item (5, (f 5).addKey (loaderKey 0 5)), .fin, .item (6, (f 6).addKey (loaderKey 0 6))] p := by
  have hl : ∀ (name : String) (first n : Nat), first ∈ [10, 100] → n ≤ 6 → (exDisk name first n).Loads := by
    intro name first n h1 h2
    refine ⟨?_, fun _ _ => ⟨_, rfl⟩, ?_⟩
    · intro s hs
      simp only [exDisk, List.mem_singleton] at hs
      subst hs
      simp only [exDisk, if_true]
      exact exTarN_groups n h2 first h1
    · intro n hn
      simp only [exDisk] at hn
      cases hn
      decide
  have hds : ∀ d ∈ [exDisk "a" 10 4, exDisk "b" 100 6], d.Ok ∧ d.Enough ⟨0, 1, 2⟩ ∧ d.Loads := by
    intro d hd
    simp only [List.mem_cons, List.not_mem_nil, or_false] at hd
    rcases hd with rfl | rfl
    · exact ⟨exDisk_ok _ _ _ (by decide), by unfold Disk.Enough; decide, hl _ _ _ (by decide) (by decide)⟩
    · exact ⟨exDisk_ok _ _ _ (by decide), by unfold Disk.Enough; decide, hl _ _ _ (by decide) (by decide)⟩
  have hE : exE.Accepts exO.batchSize exO.packing :=
    ⟨by simp [exE], by simp [exE, UserMap.Accepts], by simp [exE], by simp [exE], by
      intro n hn
      cases hn
      exact ⟨by decide, fun _ _ => ⟨_, rfl⟩⟩, by simp [exO]⟩
  obtain ⟨A0, h0⟩ := C104_accepting (fun _ => exR) exE [exDisk "a" 10 4, exDisk "b" 100 6] { exO with epochLength := 5 } ⟨0, 1, 2⟩ (by simp) hds (by decide) hE
    ⟨by simp [exO], by simp [exO]⟩
  obtain ⟨h0, hf⟩ := h0 0 (by decide)
  obtain ⟨A, f, h1, -, h2⟩ := C122_training_worker_partial exR exE [exDisk "a" 10 4, exDisk "b" 100 6] { exO with epochLength := 5 } ⟨0, 1, 2⟩ 0 (by simp) (fun d hd => ⟨(hds d hd).1, (hds d hd).2.1⟩) (by decide) (by decide)
    ⟨by simp [exE], by simp [exE, UserMap.Plain], by simp [exE], rfl, by simp [exO]⟩ ⟨by simp [exO], by simp [exO]⟩ h0 hf (by decide)
  obtain ⟨h3, h4⟩ := h2 0 (wfresh A.D) 0 .fresh ⟨4, 2, fun _ => true⟩
  obtain ⟨p, hp⟩ := h3 4
  have hlen := itemsOf_eventsFrom f (epochEnds (localShare 5 2 0)) 0 0 4
  have h5 := (h4 _ p hp).2 4 4 (Nat.le_refl _) (Nat.le_refl _) (by decide) (by rw [hlen]; decide) (by
    rintro es ⟨l, hes⟩
    have h6 : (itemsOf es).length ≤ 4 := by
      rw [← hlen, ← hes, Dataset.itemsOf_append, Dataset.itemsOf_append, List.length_append, List.length_append]
      exact Nat.le_trans (Nat.le_add_right _ _) (Nat.le_add_right _ _)
    omega)
  obtain ⟨k, hk⟩ := Option.isSome_iff_exists.1 h5
  have h6 : IncP A.D 0 (wresume A.D k) 4 := .restored .fresh hp (by decide) (by rw [hlen]) hk
  obtain ⟨q, hq⟩ := (h2 0 _ 4 h6 ⟨4, 2, fun _ => true⟩).1 3
  exact ⟨A, f, _, h1, h6, q, hq⟩

end Verif.Pipeline
