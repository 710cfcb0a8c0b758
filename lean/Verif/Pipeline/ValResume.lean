import Verif.Pipeline.LimitResume
import Verif.Loader.PassLoader

/-!
# C123: saving and resuming a validation loader

Source: /repo src/megatron/energon/task_encoder/base.py:557-601 (model in `Verif.Pipeline.Model`) and /repo src/megatron/energon/savable_loader.py (`Verif.Loader.PassLoader`): the loader of C123 with the datasets of a validation.
-/

namespace Verif.Pipeline

open Verif.Stream Verif.Wds Verif.Loader

variable {σ κ B C K ρ : Type}

/-! ### Proofs: the passes as one run -/

/-- The states of a pass -/
theorem pass_states {D : Dataset σ (Smp C) κ} {s s' : σ} {xs : List (Smp C)} (h : D.Pass s xs s') :
    ∃ t : Nat → σ, t 0 = s ∧ (∀ i (hi : i < xs.length), Obs D.step (t i) (.item xs[i] (t (i + 1)))) ∧ Obs D.step (t xs.length) (.fin s') := by
  induction xs generalizing s with
  | nil =>
    unfold Dataset.Pass passEvs at h
    cases h with
    | fin h1 h2 =>
      cases h2
      exact ⟨fun _ => s, rfl, fun i hi => absurd hi (Nat.not_lt_zero _), h1⟩
  | cons a xs ih =>
    unfold Dataset.Pass passEvs at h
    cases h with
    | @item _ _ s1 _ _ h1 h2 =>
      obtain ⟨t, h3, h4, h5⟩ := ih (show D.Pass s1 xs s' from h2)
      refine ⟨fun i => match i with | 0 => s | i + 1 => t i, rfl, ?_, h5⟩
      intro i hi
      match i with
      | 0 => exact (by rw [← h3] at h1; exact h1)
      | i + 1 => exact h4 i (Nat.lt_of_succ_lt_succ hi)

/-- The state when `j` samples have just been delivered, given those in each pass of `m` -/
def passState (init : σ) (t : Nat → Nat → σ) (m : Nat) : Nat → σ
  | 0 => init
  | j + 1 => t (j / m) (j % m + 1)

/-- Passes with `m > 0` samples each are one endless run with an end behind every `m` samples. -/
theorem passRun_of_passes {D : Dataset σ (Smp C) κ} {out : Nat → List (Smp C)} (h : Passes D out) {m : Nat} (hm : 0 < m) (hl : ∀ k, (out k).length = m) :
    ∃ (f : Nat → Smp C) (st fn : Nat → σ), PassRun D f (epochEnds m) st fn ∧ ∀ j, (out (j / m))[j % m]? = some (f j) := by
  obtain ⟨S, h0, hp⟩ := h
  choose t h1 h2 h3 using fun k => pass_states (hp k)
  have hlt : ∀ j, j % m < (out (j / m)).length := fun j => by rw [hl]; exact Nat.mod_lt _ hm
  refine ⟨fun j => (out (j / m))[j % m]'(hlt j), passState D.init t m, fun j => S (j / m), ⟨rfl, by simp [epochEnds], ?_, ?_⟩,
    fun j => List.getElem?_eq_getElem (hlt j)⟩
  · intro j
    have key := h2 (j / m) (j % m) (hlt j)
    have e : (if epochEnds m j = true then S (j / m) else passState D.init t m j) = t (j / m) (j % m) := by
      match j with
      | 0 =>
        simp only [epochEnds, Nat.lt_irrefl, false_and, decide_false, Bool.false_eq_true, if_false, Nat.zero_div, Nat.zero_mod]
        rw [h1 0, h0]
        rfl
      | j + 1 =>
        by_cases hz : (j + 1) % m = 0
        · rw [if_pos (by simp [epochEnds, hz]), hz, h1]
        · rw [if_neg (by simp [epochEnds, hz])]
          have hd := Nat.div_add_mod j m
          have hmm := Nat.mod_lt j hm
          have h4 : j % m + 1 < m := by
            rcases Nat.lt_or_ge (j % m + 1) m with h | h
            · exact h
            · exfalso
              apply hz
              have e1 : j + 1 = m * (j / m + 1) := by rw [Nat.mul_succ]; omega
              rw [e1, Nat.mul_mod_right]
          have h5 : (j + 1) / m = j / m ∧ (j + 1) % m = j % m + 1 := by
            have e1 : j + 1 = j % m + 1 + m * (j / m) := by omega
            constructor
            · conv => lhs; rw [e1]
              rw [Nat.add_mul_div_left _ _ hm, Nat.div_eq_of_lt h4, Nat.zero_add]
            · conv => lhs; rw [e1]
              rw [Nat.add_mul_mod_self_left, Nat.mod_eq_of_lt h4]
          rw [h5.1, h5.2]
          rfl
    rw [e]
    exact key
  · intro j he
    simp only [epochEnds, decide_eq_true_eq] at he
    obtain ⟨j, rfl⟩ := Nat.exists_eq_succ_of_ne_zero (Nat.pos_iff_ne_zero.1 he.1)
    have hd := Nat.div_add_mod j m
    have hmm := Nat.mod_lt j hm
    have h4 : j % m + 1 = m := by
      rcases Nat.lt_or_ge (j % m + 1) m with h | h
      · exfalso
        have e1 : j + 1 = j % m + 1 + m * (j / m) := by omega
        have := he.2
        rw [Nat.succ_eq_add_one, e1, Nat.add_mul_mod_self_left, Nat.mod_eq_of_lt h] at this
        omega
      · omega
    have h5 : (j + 1) / m = j / m + 1 := by
      have e1 : j + 1 = m * (j / m + 1) := by rw [Nat.mul_succ]; omega
      rw [e1, Nat.mul_div_cancel_left _ hm]
    have h6 := h3 (j / m)
    rw [hl] at h6
    show Obs D.step (t (j / m) (j % m + 1)) (.fin (S ((j + 1) / m)))
    rw [h4, h5]
    exact h6

/-! ### Proofs: the datasets of a validation resume -/

theorem map_upToEnd {D : Dataset σ (Smp C) κ} {f : MapFn C C} {b : Bool} (h : D.ResumesUpToEnd) : (mapD D f b).ResumesUpToEnd := by
  rintro ⟨s, x⟩ hp
  obtain ⟨h1, h2⟩ := loopW_paused (body := mapBody f) (rs := mapRestore D f b) (has := D.hasSamples) hp
  obtain ⟨n, c⟩ := x
  simp only at h2
  subst h2
  rcases h s h1 with h3 | ⟨s', h3, h4⟩
  · exact .inl (wrap_equiv loopW_noReset h3 _)
  · refine .inr ⟨(s', ⟨n, .loop⟩), ?_, wrap_equiv loopW_noReset h4 _⟩
    exact wrap_obs.2 (.pullFin rfl h3 (.halt rfl))

theorem mapStage_upToEnd {u : Option (UserMap C)} (hu : ∀ f, u = some f → f.Plain) {A : AnyDs C} (h : A.D.ResumesUpToEnd) : (mapStage u A).D.ResumesUpToEnd := by
  unfold mapStage
  split
  · exact h
  · exact map_upToEnd h
  · exact (hu _ rfl).elim

/-- The dataset of a validation without limit, built from one dataset, resumes exactly or up to the end of a pass. -/
theorem val_resumes [DecidableEq K] {R : Rngs ρ} {E : Encoder C K} {d : Disk B C} {o : ValOpts} {w : Sharder.WorkerConfig} {i : Nat} (hd : d.Ok) (hr : w.rank < w.worldSize) (hi : i < w.workers)
    (hE : E.Simple none) (hp : o.packing = none) (hlim : o.limit = none ∨ o.limit = some 0) {A : AnyDs C} (h : valDs R E [d] o w i = .ok A) : A.D.ResumesUpToEnd := by
  unfold valDs valSource at h
  simp only at h
  cases hb : buildPart (R.reader 0) d false w 0 i with
  | error e => rw [hb] at h; simp at h
  | ok D =>
    rw [hb] at h
    have hD := buildPart_val_resumes hd hr hi hb false
    have h1 : (mapStage E.encode (mapStage E.cook (⟨_, _, D⟩ : AnyDs C))).D.ResumesExactly := mapStage_resumes hE.encode (mapStage_resumes hE.cook hD)
    simp only [buildBatch, packStage, hp, batchStage, hE.group] at h
    cases h
    have h2 := mapStage_upToEnd (A := onlyIf E.batchStateless ⟨_, _, batchD (mapStage E.encode (mapStage E.cook (⟨_, _, D⟩ : AnyDs C))).D o.batchSize o.dropLast E.batch⟩) hE.encodeBatch
      (onlyIf_upToEnd (C51_batch_resumes _ _ _ _ h1))
    refine logStage_upToEnd ?_
    unfold limitStage
    rcases hlim with hl | hl <;> rw [hl]
    · exact h2
    · exact h2

/-! ### Proofs: the contents of the loops -/

/-- The samples of a worker behind the first `c`, up to the end of the pass -/
theorem passFrom_contents {f : Nat → Smp C} {gid c m : Nat} {l : List (Nat × Smp C)} (h : PassFrom f (epochEnds m) gid c l) {made : List C} (hm : 0 < made.length) (hml : made.length = m)
    (hf : ∀ j, made[j % m]? = some (f j).content) : l.map (·.2.content) = made.drop (c % m) := by
  have hlen := epoch_length h (m := m) (by omega)
  have hmod := Nat.mod_lt c (show 0 < m by omega)
  apply List.ext_getElem?
  intro i
  rw [h.samples, List.map_map, List.getElem?_map, List.getElem?_drop]
  rcases Nat.lt_or_ge i l.length with hi | hi
  · rw [List.getElem?_range hi]
    have := hf (c + i)
    rw [Nat.add_mod, Nat.mod_eq_of_lt (show i < m by omega), Nat.mod_eq_of_lt (show c % m + i < m by omega)] at this
    rw [this]
    rfl
  · rw [List.getElem?_eq_none (by simpa using hi), List.getElem?_eq_none (by omega)]
    rfl

/-- What the first loops of a worker have together -/
theorem inLoops_mod {f : Nat → Smp C} {gid c m : Nat} {xs : Nat → Nat → List (Nat × Smp C)} {i : Nat} (hm : 0 < m) (h : ∀ k, PassFrom f (epochEnds m) gid (c + inLoops xs i k) (xs k i)) (k : Nat) :
    (c + inLoops xs i k) % m = if k = 0 then c % m else 0 := by
  cases k with
  | zero => rfl
  | succ k =>
    have := (h k).last
    simp only [epochEnds, decide_eq_true_eq] at this
    rw [inLoops_succ, ← Nat.add_assoc, this.2, if_neg (Nat.succ_ne_zero k)]

/-! ### The property -/

/-- **C123, validation, the whole loader.** `get_savable_loader` with `n > 0` workers on a validation dataset: one dataset, any worker configuration and task encoder without packing, grouping and generator functions, without limit or with `drop_last`; each worker
has at least one batch. `made i`: the contents of the batches of worker `i` in a pass (C68). After any number of saves and restores, each in any loop or between two loops, but not while the user has all batches of a worker and this worker has
not yet answered with the end of its pass (`cs i`: batches delivered from worker `i` before), for any number of further loops, schedules and timers:

- any number of loops can be made, and each ends;
- in the first loop each worker delivers the rest of its current pass, in each later loop exactly all of its batches, in order;
- from worker `i` the contents of what has been delivered in all loops continue those before: nothing is lost and nothing repeated;
- if the next worker was worker 0 when the state was saved, each loop takes the batches from the workers in turn: all later loops are those of the uninterrupted run;
- the state can be saved, if something has been delivered from each worker in this life, and from a worker that has reported the end everything;
- behind the end of a loop it can always be saved; then the next worker is worker 0 and no worker is inside a pass, so all loops after restoring are complete, those of the uninterrupted run.

Missing: saving in the other moments (`C123_violated_timing`, `C37_violated_end`), several datasets (`C123_violated_several`), a limit without `drop_last` (`C123_violated_limit`), packing (`C123_violated_packing`) and grouping (`C123_violated_grouping`). -/
theorem C123_val_loader_partial [DecidableEq K] (R : Nat → Rngs ρ) (E : Encoder C K) (d : Disk B C) (o : ValOpts) (w : Sharder.WorkerConfig) (hd : d.Val) (hr : w.rank < w.worldSize) (hb : 0 < o.batchSize)
    (load : Raw B → Option C) (hload : Computes d.load load) (F : Fns C K) (hF : E.Is F (some o.batchSize) none) (hE : E.Simple none) (hp : o.packing = none) (hlim : o.limit = none ∨ o.limit = some 0 ∨ o.dropLast = true) (hn : 0 < w.numWorkers) :
    ∃ (A : Nat → AnyDs C) (made : Nat → List C),
      (∀ i < w.numWorkers, valDs (R i) E [d] o w i = .ok (A i) ∧ ∃ batches,
        Batched F false o.batchSize o.dropLast ((((d.raws w i).filterMap load).flatMap F.cook).flatMap F.encode) batches ∧ made i = o.cut w.numWorkers i ((batches.filterMap F.batch).flatMap F.encodeBatch)) ∧
      ((∀ i < w.numWorkers, made i ≠ []) → ∀ us cs off, LIncV w.numWorkers w.rank (bundle A) us cs off → ∀ cfg : Nat → Loader.Cfg,
        (∃ T xs, LifeP w.numWorkers w.rank (bundle A) us off cfg T xs [] (Loader.start (Got C) w.numWorkers)) ∧
        ∀ T xs past s, LifeP w.numWorkers w.rank (bundle A) us off cfg T xs past s →
          Ends w.numWorkers (answers (turns w.numWorkers off (xs past.length))) ∧
          (∀ k (hk : k < past.length),
            (∀ i < w.numWorkers, (fromWorker i past[k]).map (·.smp.content) = (made i).drop (if k = 0 then cs i % (made i).length else 0)) ∧
            (off = 0 → ∀ N, (∀ i < w.numWorkers, (made i).length ≤ N) →
              past[k].map (·.smp.content) = inTurns w.numWorkers (fun i => (made i).drop (if k = 0 then cs i % (made i).length else 0)) N)) ∧
          (∀ i < w.numWorkers, ∀ j (hj : j < (fromWorker i (Loader.delivered past s)).length),
            (fromWorker i (Loader.delivered past s))[j].idx = cs i + j ∧ (made i)[(cs i + j) % (made i).length]? = some (fromWorker i (Loader.delivered past s))[j].smp.content) ∧
          ((∀ i < w.numWorkers, 2 ≤ (cfg i).keep ∧ 2 * w.numWorkers ≤ (cfg i).minN) → (∀ i < w.numWorkers, 0 < (fromWorker i (Loader.delivered past s)).length) →
            (∀ i < w.numWorkers, (xs past.length i).length < answeredP w.numWorkers off s i → (fromWorker i (got s)).length = (xs past.length i).length) →
            ∃ k, saveP w.numWorkers (fun i => attrsP T xs past.length i (answeredP w.numWorkers off s i)) past s = some k) ∧
          ((∀ i < w.numWorkers, 2 ≤ (cfg i).keep ∧ 2 * w.numWorkers ≤ (cfg i).minN) → s.phase = .finished →
            ∃ k, saveP w.numWorkers (fun i => attrsP T xs past.length i (answeredP w.numWorkers off s i)) past s = some k ∧
              LIncV w.numWorkers w.rank (bundle A) (fun i => wresume (bundle A i) (k.workers i)) (fun i => cs i + (fromWorker i (Loader.delivered past s)).length) 0 ∧
              ∀ i < w.numWorkers, (cs i + (fromWorker i (Loader.delivered past s)).length) % (made i).length = 0)) := by
  have hw : w.workers = w.numWorkers := by unfold Sharder.WorkerConfig.workers; omega
  have hall : ∀ i, ∃ (A : AnyDs C) (made : List C), i < w.numWorkers → (valDs (R i) E [d] o w i = .ok A ∧ ∃ batches,
        Batched F false o.batchSize o.dropLast ((((d.raws w i).filterMap load).flatMap F.cook).flatMap F.encode) batches ∧ made = o.cut w.numWorkers i ((batches.filterMap F.batch).flatMap F.encodeBatch)) ∧
      ∃ out, Passes A.D out ∧ ∀ k, (out k).map (·.content) = made := by
    have some : ∀ i < w.numWorkers, ∃ (A : AnyDs C) (made : List C), (valDs (R i) E [d] o w i = .ok A ∧ ∃ batches,
        Batched F false o.batchSize o.dropLast ((((d.raws w i).filterMap load).flatMap F.cook).flatMap F.encode) batches ∧ made = o.cut w.numWorkers i ((batches.filterMap F.batch).flatMap F.encodeBatch)) ∧
      ∃ out, Passes A.D out ∧ ∀ k, (out k).map (·.content) = made := by
      intro i hi
      obtain ⟨A, h1, out, h2, packs, batches, h3, h4, h5⟩ := C68_val_contents_partial (R i) E [d] o w i (by simp) (by simpa using hd) hr (by rw [hw]; exact hi) hb (fun _ => load) (by simpa using hload) F (by rw [hp]; exact hF)
      rw [hp] at h3
      have h3 : packs = _ := h3
      subst h3
      rw [hE.group] at h4 h5
      refine ⟨A, _, ⟨h1, batches, by simpa using h4, rfl⟩, out, h2, fun k => ?_⟩
      rw [h5 k]
      simp
    intro i
    by_cases hi : i < w.numWorkers
    · obtain ⟨A, made, h⟩ := some i hi
      exact ⟨A, made, fun _ => h⟩
    · obtain ⟨A, made, _⟩ := some 0 hn
      exact ⟨A, made, fun h => absurd h hi⟩
  choose A made hA using hall
  refine ⟨A, made, fun i hi => (hA i hi).1, fun hmade us cs off h cfg => ?_⟩
  have hval : ∀ i < w.numWorkers, (A i).D.ResumesUpToEnd := by
    intro i hi
    have hi' : i < w.workers := by rw [hw]; exact hi
    have h1 := (hA i hi).1.1
    rcases hlim with hl | hl | hl
    · exact val_resumes hd.ok hr hi' hE hp (.inl hl) h1
    · exact val_resumes hd.ok hr hi' hE hp (.inr hl) h1
    · match h2 : o.limit with
      | none => exact val_resumes hd.ok hr hi' hE hp (.inl h2) h1
      | some 0 => exact val_resumes hd.ok hr hi' hE hp (.inr h2) h1
      | some (n + 1) =>
        obtain ⟨A0, h3, out, h4, _⟩ := C68_val_contents_partial (R i) E [d] { o with limit := none, logging := false } w i (by simp) (by simpa using hd) hr hi' hb (fun _ => load) (by simpa using hload) F (by rw [hp]; exact hF)
        exact fun s hs => .inl (val_limit_resumes hd.ok hr hi' hE hp hl (Nat.succ_pos n) h2 h3 h4 h1 s hs)
  have hmpos : ∀ i < w.numWorkers, 0 < (made i).length := fun i hi => List.length_pos_iff.2 (hmade i hi)
  have hst : ∀ i, ∃ (f : Nat → Smp C) (st fn : Nat → Σ v, (A v).σ), i < w.numWorkers → PassRun (bundle A i) f (epochEnds (made i).length) st fn ∧ ∀ j, (made i)[j % (made i).length]? = some (f j).content := by
    intro i
    by_cases hi : i < w.numWorkers
    · obtain ⟨-, out, h1, h2⟩ := hA i hi
      obtain ⟨f, st, fn, h3, h4⟩ := passRun_of_passes h1 (hmpos i hi) (fun k => by rw [← h2 k, List.length_map])
      refine ⟨f, _, _, fun _ => ⟨bundle_passRun h3, fun j => ?_⟩⟩
      have := h4 j
      rw [← h2 (j / (made i).length), List.getElem?_map, h2, this]
      rfl
    · obtain ⟨-, out, h1, h2⟩ := hA 0 hn
      obtain ⟨f, st, fn, h3, h4⟩ := passRun_of_passes h1 (hmpos 0 hn) (fun k => by rw [← h2 k, List.length_map])
      exact ⟨f, fun _ => ⟨i, (A i).D.init⟩, fun _ => ⟨i, (A i).D.init⟩, fun h => absurd h hi⟩
  choose f st fn hrun using hst
  have hD : ∀ i < w.numWorkers, (bundle A i).ResumesUpToEnd := fun i hi => bundle_upToEnd (hval i hi)
  obtain ⟨h1, h2⟩ := C123_loader_partial (f := f) (ends := fun i => epochEnds (made i).length) hn hD (fun i hi => (hrun i hi).1) (fun i hi c => by
    have := hmpos i hi
    refine ⟨(made i).length * (c + 1), ?_, ?_⟩
    · have := Nat.mul_le_mul_right (c + 1) this
      omega
    · simp only [epochEnds, decide_eq_true_eq, Nat.mul_mod_right, and_true]
      exact Nat.mul_pos this (by omega)) h cfg
  refine ⟨h1, fun T xs past s hl => ?_⟩
  obtain ⟨g1, g2, g3, g4, g5⟩ := h2 T xs past s hl
  have hcont : ∀ i < w.numWorkers, ∀ k, (xs k i).map (·.2.content) = (made i).drop (if k = 0 then cs i % (made i).length else 0) := by
    intro i hi k
    rw [passFrom_contents (g2 i hi k) (hmpos i hi) rfl (hrun i hi).2, inLoops_mod (hmpos i hi) (g2 i hi) k]
  refine ⟨g1, fun k hk => ⟨fun i hi => ?_, fun hoff N hN => ?_⟩, fun i hi j hj => ?_, g5, fun hcfg hf => ?_⟩
  · rw [(g4 k hk).2 i hi, List.map_map]
    exact hcont i hi k
  · subst hoff
    obtain ⟨t, ht, hf, e⟩ := hl.loops k hk
    obtain ⟨M, hh, hM⟩ := C35_complete hn (answers_sticky _) ht hf
    have hlog : ∀ p < w.numWorkers, logical w.numWorkers 0 p = p := by
      intro p hp
      rw [logical_eq, Nat.sub_zero, Nat.add_mod_right, Nat.mod_eq_of_lt hp]
    rw [e, got, hM, rounds_inTurns]
    have e1 : (inTurns w.numWorkers (turns w.numWorkers 0 (xs k)) M).map (·.smp.content) = inTurns w.numWorkers (fun i => (made i).drop (if k = 0 then cs i % (made i).length else 0)) M := by
      unfold inTurns
      rw [List.map_flatMap]
      refine List.flatMap_congr fun j _ => ?_
      rw [List.map_filterMap]
      apply filterMap_congr'
      intro i hi
      have hi := List.mem_range.1 hi
      dsimp only
      rw [← hcont i hi k, turns, hlog i hi, List.getElem?_map, List.getElem?_map, Option.map_map]
      rfl
    rw [e1]
    refine inTurns_eq (fun i hi => ?_) (fun i hi => ?_)
    · have := hh i hi
      simp only [answers, turns, hlog i hi, List.getElem?_eq_none_iff, List.length_map] at this
      rw [← hcont i hi k, List.length_map]
      exact this
    · rw [List.length_drop]
      have := hN i hi
      omega
  · have h3 := g3 i hi
    have h4 : (fromWorker i (Loader.delivered past s))[j] = ⟨i, cs i + j, (f i (cs i + j)).addKey (loaderKey (w.rank * w.numWorkers + i) (cs i + j))⟩ := by
      rw [List.getElem_of_eq h3, List.getElem_map, List.getElem_range]
    rw [h4]
    exact ⟨rfl, (hrun i hi).2 (cs i + j)⟩
  · obtain ⟨k, k1, k2, k3⟩ := C123_loader_between hn hD (fun i hi => (hrun i hi).1) h hcfg hl hf
    refine ⟨k, k1, k2, fun i hi => ?_⟩
    have := k3 i hi
    simp only [epochEnds, decide_eq_true_eq] at this
    exact this.2

/-! ### Where it fails -/

/-- Saving after `k` events and resuming shows other events than going on, and, if the next event is the end of the pass, also other events than behind this end (within `n` steps, looking at `m` events). -/
def brokenUpToEnd (X : Except BErr (AnyDs Nat)) (n k m : Nat) : Bool :=
  match X with
  | .ok A =>
    match A.D.after n k A.D.init with
    | some s => decide ((A.D.eval n (A.D.resume (A.D.save s))).length ≥ m ∧ (A.D.eval n s).length > m ∧ (A.D.eval n s).take m ≠ (A.D.eval n (A.D.resume (A.D.save s))).take m ∧
        ((A.D.eval n s).take (m + 1) ≠ .fin :: (A.D.eval n (A.D.resume (A.D.save s))).take m))
    | none => false
  | .error _ => false

theorem brokenUpToEnd_spec {X : Except BErr (AnyDs Nat)} {n k m : Nat} (h : brokenUpToEnd X n k m = true) : ∃ A, X = .ok A ∧ ¬ A.D.ResumesUpToEnd := by
  unfold brokenUpToEnd at h
  split at h
  · rename_i A
    split at h
    · rename_i s hs
      obtain ⟨h1, h2, h3, h4⟩ := of_decide_eq_true h
      refine ⟨A, rfl, fun hr => ?_⟩
      rcases hr s (Dataset.after_paused hs .init) with h5 | ⟨s', h5, h6⟩
      · exact Dataset.not_equiv n m h3 (by simp only [List.length_take]; omega) h5
      · have h7 := (h6 _).2 ((A.D.eval_trace n (A.D.resume (A.D.save s))).take m)
        exact h4 (((A.D.eval_trace n s).take (m + 1)).det (.fin h5 h7) (by simp only [List.length_cons, List.length_take]; omega))
    · cases h
  · cases h

/-- **C123 fails for several validation datasets:** which dataset is being read is not saved. Datasets of 4 and 6 samples, one worker, batches of one, no limit: saved after five batches the resumed run begins with the first dataset again, so batches
are repeated and the pass has too many. -/
theorem C123_violated_several : ∃ A, valDs exR exE [exDisk "a" 10 4, exDisk "b" 100 6] ⟨1, false, none, none, true⟩ ⟨0, 1, 1⟩ 0 = .ok A ∧ ¬ A.D.ResumesUpToEnd :=
  brokenUpToEnd_spec (n := 60) (k := 5) (m := 1) (by decide +kernel)

/-- **C123 fails for a limit without `drop_last`:** one dataset of 5 samples, one worker, batches of two, a limit of four batches. Saved behind the third, incomplete batch, the resumed run begins the data again but still counts the three batches: the
next loop ends after one batch, and the others of this pass are never delivered. -/
theorem C123_violated_limit : ∃ A, valDs exR exE [exDisk "a" 10 5] ⟨2, false, none, some 4, true⟩ ⟨0, 1, 1⟩ 0 = .ok A ∧ ¬ A.D.ResumesUpToEnd :=
  brokenUpToEnd_spec (n := 40) (k := 3) (m := 2) (by decide +kernel)

/-- **C123 fails with packing:** the packs still to come are saved, but not that they are the last ones of the pass. Packs of two samples out of a buffer of five, 4 samples: saved behind the first pack, the resumed run delivers the second one, and then
begins the data again without reporting the end: the next loop is longer than the rest of the pass. -/
theorem C123_violated_packing : ∃ (E : Encoder Nat Nat) (A : AnyDs Nat), E.Simple (some 5) ∧ valDs exR E [exDisk "a" 10 4] ⟨1, false, some 5, none, true⟩ ⟨0, 1, 1⟩ 0 = .ok A ∧ ¬ A.D.ResumesUpToEnd := by
  obtain ⟨A, h1, h2⟩ := brokenUpToEnd_spec (X := valDs exR { exE with pack := some (pairPacks, false, plainFinal sumBatch) } [exDisk "a" 10 4] ⟨1, false, some 5, none, true⟩ ⟨0, 1, 1⟩ 0) (n := 80) (k := 1) (m := 2)
    (by decide +kernel)
  refine ⟨_, A, ⟨by simp [exE], by simp [exE, UserMap.Plain], by simp [exE], rfl, fun _ => ⟨by simp [exE], by simp [exE, UserMap.stateless], fun p hp => ?_⟩⟩, h1, h2⟩
  cases hp
  exact ⟨pairPacks_sub, rfl, sumBatch, rfl⟩

/-- **C123 fails with grouping:** the samples that wait for their group to be complete are not saved. 5 samples in two groups, batches of two: saved behind the first batch, what the resumed run delivers lacks a sample. -/
theorem C123_violated_grouping : ∃ A, valDs exR { exE with group := some fun _ a => .group (a.content % 4) none } [exDisk "a" 10 5] ⟨2, false, none, none, true⟩ ⟨0, 1, 1⟩ 0 = .ok A ∧ ¬ A.D.ResumesUpToEnd :=
  brokenUpToEnd_spec (n := 80) (k := 1) (m := 2) (by decide +kernel)

/-! ### A case -/

/-- A dataset with 4 samples, 2 workers, batches of one, a limit of 3 (two batches of worker 0, one of worker 1): the hypotheses are met. A new loader delivers all in the first loop, it is saved behind this loop, and the restored loader again delivers all in each loop. -/
example : ∃ (A : Nat → AnyDs Nat) (us : Nat → _) (cs : Nat → Nat), (∀ i < 2, valDs exR exE [exDisk "a" 10 4] ⟨1, true, none, some 3, true⟩ ⟨0, 1, 2⟩ i = .ok (A i)) ∧
    LIncV 2 0 (bundle A) us cs 0 ∧ cs 0 = 2 ∧ cs 1 = 1 ∧
    ∃ T xs s, LifeP 2 0 (bundle A) us 0 (fun _ => ⟨4, 2, fun _ => false⟩) T xs [] s ∧ s.phase = .finished := by
  have hv : (exDisk "a" 10 4).Val := exDisk_val _ _ _ (by decide) (by decide +kernel)
  obtain ⟨A, made, h1, h2⟩ := C123_val_loader_partial (fun _ => exR) exE (exDisk "a" 10 4) ⟨1, true, none, some 3, true⟩ ⟨0, 1, 2⟩ hv (by decide) (by decide) (fun r => some (r.parts.map (·.2)).sum) ((exVals _ (by simp)).2)
    ⟨fun c => [c], fun c => [2 * c], fun l => [l], fun l => l, fun _ => none, fun _ => 2, fun l => some l.sum, fun c => [c]⟩
    ⟨fun _ => rfl, fun _ _ => rfl, (by intro _ h; cases h), (by intro _ h; cases h), fun _ _ => rfl, fun _ => rfl⟩
    ⟨by simp [exE], by simp [exE, UserMap.Plain], by simp [exE], rfl, by simp⟩ rfl (.inr (.inr rfl)) (by decide)
  have hm : ∀ i < 2, (made i).length = 2 - i := by
    intro i hi
    obtain ⟨-, batches, h3, h4⟩ := h1 i hi
    have h3 : Batches 1 true _ batches := h3
    have h5 : batches.length = 2 := by
      obtain ⟨rest, e, e2, -⟩ := h3.concat
      have e2 : rest = [] := List.length_eq_zero_iff.1 (by omega)
      rw [e2, List.append_nil] at e
      have hlen := congrArg List.length e
      have hsum : ∀ l : List (List Nat), (∀ b ∈ l, b.length = 1) → l.flatten.length = l.length := by
        intro l
        induction l with
        | nil => intro _; rfl
        | cons b l ih =>
          intro hb
          rw [List.flatten_cons, List.length_append, ih fun b h => hb b (by simp [h]), hb b (by simp), List.length_cons]
          omega
      rw [hsum batches fun b hb => by have := h3.last b hb; omega] at hlen
      rw [← hlen]
      match i, hi with
      | 0, _ => decide +kernel
      | 1, _ => decide +kernel
    rw [h4]
    have h6 : ∀ l : List (List Nat), ((l.filterMap fun l => some l.sum).flatMap fun c => [c]).length = l.length := by simp
    match i, hi with
    | 0, _ => exact (List.length_take ..).trans (by rw [h6, h5]; decide)
    | 1, _ => exact (List.length_take ..).trans (by rw [h6, h5]; decide)
  have hcfg : ∀ i < 2, 2 ≤ ((fun _ => ⟨4, 2, fun _ => false⟩ : Nat → Loader.Cfg) i).keep ∧ 2 * 2 ≤ ((fun _ => ⟨4, 2, fun _ => false⟩ : Nat → Loader.Cfg) i).minN := fun _ _ => ⟨Nat.le_refl _, Nat.le_refl _⟩
  have h2 := h2 (fun i hi e => by have := hm i hi; rw [e, List.length_nil] at this; have : i < 2 := hi; omega)
  -- one loop to its end
  have loop : ∀ us cs, LIncV 2 0 (bundle A) us cs 0 → ∃ T xs s, LifeP 2 0 (bundle A) us 0 (fun _ => ⟨4, 2, fun _ => false⟩) T xs [] s ∧ s.phase = .finished := by
    intro us cs h
    obtain ⟨⟨T, xs, hl⟩, h3⟩ := h2 us cs 0 h (fun _ => ⟨4, 2, fun _ => false⟩)
    obtain ⟨s, h4, h5⟩ := ends_finished (h3 T xs [] _ hl).1
    exact ⟨T, xs, s, { hl with reach := h4 }, h5⟩
  obtain ⟨T, xs, s, hl, hf⟩ := loop _ _ .new
  have h3 := (h2 _ _ _ .new _).2 T xs [] s hl
  obtain ⟨k, -, h4, -⟩ := h3.2.2.2.2 hcfg hf
  have hlen : ∀ i < 2, (fromWorker i (Loader.delivered [] s)).length = 2 - i := by
    intro i hi
    have h5 := ((h2 _ _ _ .new _).2 T xs _ _ (hl.again hf)).2.1 0 (by simp)
    have h6 := congrArg List.length (h5.1 i hi)
    simp only [List.nil_append, List.getElem_cons_zero, List.length_map, List.length_drop, if_true, Nat.zero_mod, hm i hi] at h6
    exact h6
  refine ⟨A, _, _, fun i hi => (h1 i hi).1, h4, ?_, ?_, loop _ _ h4⟩
  · show 0 + _ = 2
    rw [hlen 0 (by decide)]
  · show 0 + _ = 1
    rw [hlen 1 (by decide)]

/-- The hypotheses of `C123_violated_timing` and of `C123_worker_exact`: passes of three samples. -/
example (cfg : Loader.Cfg) : ∃ (f : Nat → Smp Nat) (st fn : Nat → Nat), PassRun (listD [7, 8, 9]) f (epochEnds 3) st fn ∧
    (∃ evs p q k l, Loader.Does (listD [7, 8, 9]) (timingCfg true) 0 (wfresh (listD [7, 8, 9])) evs p ∧ Loader.Does (listD [7, 8, 9]) (timingCfg false) 0 (wfresh (listD [7, 8, 9])) evs q ∧
      getCheckpoint p.2 2 = some k ∧ getCheckpoint q.2 2 = some l ∧ (∃ p', Obs (wstep (listD [7, 8, 9]) cfg 0) (wresume (listD [7, 8, 9]) k) (.fin p')) ∧
      ∃ b q', Obs (wstep (listD [7, 8, 9]) cfg 0) (wresume (listD [7, 8, 9]) l) (.item b q')) ∧
    ∃ u, IncV (listD [7, 8, 9]) (epochEnds 3) 0 u 1 := by
  obtain ⟨f, st, fn, h, -⟩ := passRun_of_passes (D := listD [7, 8, 9]) ⟨fun _ => 0, rfl, fun _ => listD_pass [7, 8, 9]⟩ (m := 3) (by decide) (fun _ => by simp)
  refine ⟨f, st, fn, h, ?_, ?_⟩
  · obtain ⟨evs, p, q, k, l, -, h1, h2, h3, h4, h5, q', h6⟩ := C123_violated_timing h (Dataset.Equiv.refl _) (Dataset.Equiv.refl _) (by decide) (by decide) (by decide) 0 cfg
    exact ⟨evs, p, q, k, l, h1, h2, h3, h4, h5, _, q', h6⟩
  · have h0 : Loader.Does (listD [7, 8, 9]) (timingCfg true) 0 (wfresh (listD [7, 8, 9])) [.item (0, ⟨7, loaderKey 0 0 ++ [.num 0]⟩)] (1, ⟨1, 0, [⟨none, 0⟩, ⟨some 1, 1⟩], .run false true⟩) :=
      Loader.Does.nil.item (wobs_fresh rfl (wobs_item (s' := 1) (a := ⟨7, [.num 0]⟩) (.item rfl) rfl rfl))
    exact ⟨_, .restored .fresh h0 (by decide) (by decide) (fun h => absurd h (by decide)) (k := ⟨some 1, 1, 0⟩) rfl⟩

end Verif.Pipeline
