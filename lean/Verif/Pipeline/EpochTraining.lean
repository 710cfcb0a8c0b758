import Verif.Pipeline.EpochResume
import Verif.Loader.EpochLoader
import Verif.Pipeline.Loader
import Verif.Pipeline.Scaling

/-!
# C122: saving and resuming a training loader with virtual epochs

The loader of `Verif.Loader.EpochLoader` with the datasets of a training (`Verif.Pipeline.EpochResume`).
-/

namespace Verif.Pipeline

open Verif.Stream Verif.Wds Verif.Loader

variable {B C K ρ : Type}

theorem bundle_fin_inv {A : Nat → AnyDs C} {w v : Nat} {s : (A v).σ} {q : Σ v, (A v).σ} (h : Obs (bundle A w).step ⟨v, s⟩ (.fin q)) : ∃ t, q = ⟨v, t⟩ ∧ Obs (A v).D.step s (.fin t) := by
  obtain ⟨o, h1, h2⟩ := bundle_obs_inv h
  cases o with
  | fin t => cases h2; exact ⟨t, rfl, h1⟩
  | item a t => cases h2
  | err => cases h2

theorem bundle_upToEnd {A : Nat → AnyDs C} {w : Nat} (h : (A w).D.ResumesUpToEnd) : (bundle A w).ResumesUpToEnd := by
  intro p hp
  obtain ⟨s, rfl, hs⟩ := bundle_paused hp
  rcases h s hs with h1 | ⟨s', h1, h2⟩
  · exact .inl (bundle_equiv h1)
  · exact .inr ⟨⟨w, s'⟩, bundle_obs_of h1, bundle_equiv h2⟩

theorem bundle_behind {A : Nat → AnyDs C} {w : Nat} (h : ResumesBehindEnd (A w).D) : ResumesBehindEnd (bundle A w) := by
  intro p p' hp ho
  obtain ⟨s, rfl, hs⟩ := bundle_paused hp
  obtain ⟨t, rfl, h1⟩ := bundle_fin_inv ho
  exact bundle_equiv (h s t hs h1)

theorem bundle_passRun {A : Nat → AnyDs C} {w : Nat} {f : Nat → Smp C} {ends : Nat → Bool} {st fn : Nat → (A w).σ} (h : PassRun (A w).D f ends st fn) :
    PassRun (bundle A w) f ends (fun j => ⟨w, st j⟩) (fun j => ⟨w, fn j⟩) := by
  refine ⟨by rw [h.init]; rfl, h.zero, fun j => ?_, fun j he => bundle_obs_of (h.fin j he)⟩
  have e : (if ends j = true then (⟨w, fn j⟩ : Σ v, (A v).σ) else ⟨w, st j⟩) = ⟨w, if ends j = true then fn j else st j⟩ := by split <;> rfl
  rw [e]
  exact bundle_obs_of (h.item j)

/-- The length of a pass with virtual epochs: the rest of the epoch. -/
theorem epoch_length {f : Nat → Smp C} {m gid c : Nat} {l : List (Nat × Smp C)} (h : PassFrom f (epochEnds m) gid c l) (hm : 0 < m) : l.length = m - c % m := by
  have h1 := Nat.mod_lt c hm
  have h2 := Nat.div_add_mod c m
  have hrest : ∀ i, i < m - c % m → (c + i) % m = c % m + i := by
    intro i hi
    rw [Nat.add_mod, Nat.mod_eq_of_lt (show i < m by omega), Nat.mod_eq_of_lt (show c % m + i < m by omega)]
  rcases Nat.lt_trichotomy l.length (m - c % m) with h3 | h3 | h3
  · have h4 := h.last
    simp only [epochEnds, decide_eq_true_eq] at h4
    rw [hrest _ h3] at h4
    have := h.pos
    omega
  · exact h3
  · have h4 := h.before (m - c % m) (by omega) h3
    simp only [epochEnds, decide_eq_false_iff_not] at h4
    exfalso
    apply h4
    refine ⟨by omega, ?_⟩
    rw [show c + (m - c % m) = m * (c / m + 1) by rw [Nat.mul_succ]; omega, Nat.mul_mod_right]

/-- **C122, training, the whole loader.** `get_savable_loader` with `n > 0` workers on a training dataset with `virtual_epoch_length = L`, any datasets, worker configuration and task encoder (without generator functions and grouping;
datasets with a sample for each worker; without virtual epochs `next` always returns a batch), where every worker has a share `m i` of the epoch (`n ≤ L`). There are sequences `f i`, the uninterrupted endless runs of the workers without
virtual epochs, such that after any number of saves and restores, each in any loop or between two loops (`cs i`: batches delivered from worker `i` before), for any number of further loops, schedules and timers:

- any number of loops can be made, and each ends;
- what is delivered from worker `i`, loop by loop, is exactly the continuation of `f i` from number `cs i`: nothing is lost and nothing repeated;
- the first loop delivers the rest of the current epoch of each worker, each later loop an epoch: `L` batches;
- if the state was saved between two rounds (next worker 0, `r` batches of this epoch delivered from each worker) all later loops are those of the uninterrupted run: the batch at position `q` of loop `k > 0` is from worker `q % n`, and
the first loop is the rest of the current one;
- the state can be saved, if something has been delivered from each worker in this life, and from a worker that has reported the end of its share everything.

Missing: saving when a worker has reported the end of its share, but not all of that has been delivered (`C37_violated_end`); when all of the share of one worker has been delivered, but not of another one, the state can be saved, but then
the first loop is longer than the rest of the epoch (`C122_violated_rest`). -/
theorem C122_training_loader_partial [DecidableEq K] (R : Nat → Rngs ρ) (E : Encoder C K) (ds : List (Disk B C)) (o : TrainOpts) (w : Sharder.WorkerConfig)
    (hne : ds ≠ []) (hds : ∀ d ∈ ds, d.Ok ∧ d.Enough w) (hr : w.rank < w.worldSize) (hE : E.Simple o.packing) (hF : E.Fits o.batchSize o.packing) (hn : 0 < w.numWorkers) (hL : w.numWorkers ≤ o.epochLength)
    (A0 : Nat → AnyDs C) (h0 : ∀ i < w.numWorkers, trainDs (R i) E ds { o with epochLength := 0 } w i = .ok (A0 i) ∧ (A0 i).D.Flows false) :
    ∃ (A : Nat → AnyDs C) (f : Nat → Nat → Smp C),
      (∀ i < w.numWorkers, trainDs (R i) E ds o w i = .ok (A i) ∧ Loader.Stream (A0 i).D (f i)) ∧
      ∀ us cs off, LIncP w.numWorkers w.rank (bundle A) us cs off →
        ∀ cfg : Nat → Loader.Cfg, (∀ i < w.numWorkers, 2 ≤ (cfg i).keep ∧ 2 * w.numWorkers ≤ (cfg i).minN) →
          (∃ T xs, LifeP w.numWorkers w.rank (bundle A) us off cfg T xs [] (Loader.start (Got C) w.numWorkers)) ∧
          ∀ T xs past s, LifeP w.numWorkers w.rank (bundle A) us off cfg T xs past s →
            Ends w.numWorkers (answers (turns w.numWorkers off (xs past.length))) ∧
            (∀ i < w.numWorkers, fromWorker i (Loader.delivered past s) = (List.range (fromWorker i (Loader.delivered past s)).length).map fun j =>
              ⟨i, cs i + j, (f i (cs i + j)).addKey (loaderKey (w.rank * w.numWorkers + i) (cs i + j))⟩) ∧
            (∀ k (hk : k < past.length),
              (∀ i < w.numWorkers, (fromWorker i past[k]).length = localShare o.epochLength w.numWorkers i - if k = 0 then cs i % localShare o.epochLength w.numWorkers i else 0) ∧
              (0 < k → past[k].length = o.epochLength) ∧
              ∀ r, off = 0 → (∀ i < w.numWorkers, cs i % localShare o.epochLength w.numWorkers i = r) →
                past[k].length = o.epochLength - (if k = 0 then w.numWorkers * r else 0) ∧
                ∀ q (hq : q < past[k].length), past[k][q] =
                  let v := q % w.numWorkers
                  let j := cs v - r + k * localShare o.epochLength w.numWorkers v + (if k = 0 then r else 0) + q / w.numWorkers
                  ⟨v, j, (f v j).addKey (loaderKey (w.rank * w.numWorkers + v) j)⟩) ∧
            ((∀ i < w.numWorkers, 0 < (fromWorker i (Loader.delivered past s)).length) →
              (∀ i < w.numWorkers, (xs past.length i).length < answeredP w.numWorkers off s i → (fromWorker i (got s)).length = (xs past.length i).length) →
              ∃ k, saveP w.numWorkers (fun i => attrsP T xs past.length i (answeredP w.numWorkers off s i)) past s = some k) := by
  generalize hnn : w.numWorkers = n at *
  have hshare : ∀ i < n, localShare o.epochLength n i = o.epochLength / n + if i < o.epochLength % n then 1 else 0 := by
    intro i hi
    have := localShare_max o.epochLength n i (by omega)
    rwa [show max 1 n = n by omega] at this
  have hmpos : ∀ i < n, 0 < localShare o.epochLength n i := by
    intro i hi
    rw [hshare i hi]
    have := Nat.div_pos hL hn
    omega
  have hall : ∀ i, ∃ (A : AnyDs C) (f : Nat → Smp C), i < n → (trainDs (R i) E ds o w i = .ok A ∧ Loader.Stream (A0 i).D f) ∧ A.D.ResumesUpToEnd ∧ ResumesBehindEnd A.D ∧
      ∃ st fn, PassRun A.D f (epochEnds (localShare o.epochLength n i)) st fn := by
    intro i
    by_cases hi : i < n
    · obtain ⟨A, f, h1, h2, h3, h4, h5⟩ := train_passes (R i) E ds o w i hne hds hr (by unfold Sharder.WorkerConfig.workers; omega) hE hF (h0 i hi).1 (h0 i hi).2 (by rw [hnn]; exact hmpos i hi)
      rw [hnn] at h5
      exact ⟨A, f, fun _ => ⟨⟨h1, h2⟩, h3, h4, h5⟩⟩
    · obtain ⟨A, f, _⟩ := train_passes (R 0) E ds o w 0 hne hds hr (by unfold Sharder.WorkerConfig.workers; omega) hE hF (h0 0 hn).1 (h0 0 hn).2 (by rw [hnn]; exact hmpos 0 hn)
      exact ⟨A, f, fun h => absurd h hi⟩
  choose A f hA using hall
  have hst : ∀ i, ∃ st fn : Nat → Σ v, (A v).σ, i < n → PassRun (bundle A i) (f i) (epochEnds (localShare o.epochLength n i)) st fn := by
    intro i
    by_cases hi : i < n
    · obtain ⟨-, -, -, st, fn, h⟩ := hA i hi
      exact ⟨_, _, fun _ => bundle_passRun h⟩
    · exact ⟨fun _ => ⟨i, (A i).D.init⟩, fun _ => ⟨i, (A i).D.init⟩, fun h => absurd h hi⟩
  choose st fn hrun using hst
  have hD : ∀ i < n, (bundle A i).ResumesUpToEnd := fun i hi => bundle_upToEnd (hA i hi).2.1
  have hB : ∀ i < n, ResumesBehindEnd (bundle A i) := fun i hi => bundle_behind (hA i hi).2.2.1
  refine ⟨A, f, fun i hi => (hA i hi).1, ?_⟩
  intro us cs off h cfg hcfg
  refine ⟨C122_loader_goes_on hn hD hB hrun ?_ h cfg, ?_⟩
  · intro i hi c
    have := hmpos i hi
    refine ⟨localShare o.epochLength n i * (c + 1), ?_, ?_⟩
    · have := Nat.mul_le_mul_right (c + 1) this
      omega
    · simp only [epochEnds, decide_eq_true_eq, Nat.mul_mod_right, and_true]
      exact Nat.mul_pos this (by omega)
  intro T xs past s hl
  have hpass : ∀ i (hi : i < n) k, PassFrom (f i) (epochEnds (localShare o.epochLength n i)) (w.rank * n + i) (cs i + inLoops xs i k) (xs k i) :=
    fun i hi k => C122_loader_passes hn hD hB hrun h hl hi k
  -- the lengths of the passes
  have hlen : ∀ i (hi : i < n) k, (xs k i).length = localShare o.epochLength n i - (if k = 0 then cs i % localShare o.epochLength n i else 0) ∧
      (0 < k → inLoops xs i k + cs i % localShare o.epochLength n i = k * localShare o.epochLength n i) := by
    intro i hi k
    have hm := hmpos i hi
    have hmod := Nat.mod_lt (cs i) hm
    have hdiv := Nat.div_add_mod (cs i) (localShare o.epochLength n i)
    induction k with
    | zero =>
      have := epoch_length (hpass i hi 0) hm
      rw [show inLoops xs i 0 = 0 from rfl, Nat.add_zero] at this
      exact ⟨by simpa using this, by simp⟩
    | succ k ih =>
      have h1 := ih.1
      have h2 : inLoops xs i (k + 1) + cs i % localShare o.epochLength n i = (k + 1) * localShare o.epochLength n i := by
        rw [inLoops_succ, h1, Nat.succ_mul]
        rcases Nat.eq_zero_or_pos k with hk | hk
        · subst hk
          rw [if_pos rfl, show inLoops xs i 0 = 0 from rfl]
          omega
        · have h3 := ih.2 hk
          rw [if_neg (by omega)]
          omega
      refine ⟨?_, fun _ => h2⟩
      have h3 := epoch_length (hpass i hi (k + 1)) hm
      have h4 : (cs i + inLoops xs i (k + 1)) % localShare o.epochLength n i = 0 := by
        have : cs i + inLoops xs i (k + 1) = localShare o.epochLength n i * (cs i / localShare o.epochLength n i + (k + 1)) := by
          rw [Nat.mul_add, Nat.mul_comm _ (k + 1)]
          omega
        rw [this, Nat.mul_mod_right]
      rw [h4] at h3
      rw [if_neg (by omega)]
      exact h3
  refine ⟨(C35_loop hn _).1, fun i hi => C122_loader_streams hn hD hB hrun h hl hi, fun k hk => ⟨?_, ?_, ?_⟩, C122_loader_saved_partial hn hD hB hrun h hcfg hl⟩
  · intro i hi
    rw [((C122_loader_order hn hD hB hrun h hl).1 k hk).2 i hi, List.length_map]
    exact (hlen i hi k).1
  · intro hk0
    rw [C122_loader_length hn hD hB hrun h hl k hk]
    have h1 : (List.range n).map (fun i => (xs k i).length) = (List.range n).map fun i => localShare o.epochLength n i := by
      apply List.map_congr_left
      intro i hi
      rw [(hlen i (List.mem_range.1 hi) k).1, if_neg (by omega), Nat.sub_zero]
    have := sum_shares o.epochLength n
    rw [show max 1 n = n by omega] at this
    rw [h1, this]
  · intro r hoff hcs
    subst hoff
    have hr0 : ∀ i < n, r < localShare o.epochLength n i := fun i hi => by
      rw [← hcs i hi]; exact Nat.mod_lt _ (hmpos i hi)
    have hrL : r ≤ o.epochLength / n := by
      have h1 := hr0 (n - 1) (by omega)
      rw [hshare _ (by omega)] at h1
      split at h1 <;> omega
    have hnr : n * r ≤ o.epochLength := by
      have := Nat.mul_le_mul_left n hrL
      have := Nat.div_add_mod o.epochLength n
      omega
    have hcut : ∀ i < n, (xs k i).length = (o.epochLength - (if k = 0 then n * r else 0)) / n + if i < (o.epochLength - (if k = 0 then n * r else 0)) % n then 1 else 0 := by
      intro i hi
      rw [(hlen i hi k).1, hshare i hi, ← hshare i hi, hcs i hi, hshare i hi]
      by_cases hk0 : k = 0
      · rw [if_pos hk0, if_pos hk0, Nat.mul_comm n r]
        rw [Nat.mul_comm n r] at hnr
        rw [show (o.epochLength - r * n) / n = o.epochLength / n - r by rw [Nat.mul_comm]; exact Nat.sub_mul_div _ _ _]
        rw [show (o.epochLength - r * n) % n = o.epochLength % n by
          conv => rhs; rw [← Nat.sub_add_cancel hnr, Nat.add_mul_mod_self_right]]
        omega
      · rw [if_neg hk0, if_neg hk0]; simp
    obtain ⟨h1, h2⟩ := C122_loader_rounds hn hl k hk hcut
    refine ⟨h1, fun q hq => ?_⟩
    obtain ⟨x, hx, e⟩ := h2 q hq
    have hqn := Nat.mod_lt q hn
    rw [(hpass _ hqn k).samples, List.getElem?_map] at hx
    have hql : q / n < (xs k (q % n)).length := by
      by_contra hc
      rw [List.getElem?_eq_none (by simp; omega)] at hx
      cases hx
    rw [List.getElem?_range hql] at hx
    have hx := Option.some.inj hx
    have h3 := (hlen _ hqn k).2
    rw [hcs _ hqn] at h3
    have h4 : r ≤ cs (q % n) := by rw [← hcs _ hqn]; exact Nat.mod_le _ _
    have h5 : cs (q % n) + inLoops xs (q % n) k + q / n = cs (q % n) - r + k * localShare o.epochLength n (q % n) + (if k = 0 then r else 0) + q / n := by
      rcases Nat.eq_zero_or_pos k with hk0 | hk0
      · subst hk0
        rw [if_pos rfl, show inLoops xs (q % n) 0 = 0 from rfl]
        omega
      · have := h3 hk0
        rw [if_neg (by omega)]
        omega
    rw [e, ← hx]
    dsimp only
    rw [← h5]
    rfl

/-- **C122 is violated** when the state is saved while one worker has delivered the last batch of its share and another has not. Two workers with 2 batches of each epoch, saved when 3 of the 4 batches of the first epoch have been delivered:
after restoring, the first loop delivers 3 batches instead of the one that is left, and each loop, in all later epochs, begins with worker 1 (in the uninterrupted run with worker 0, `C104_virtual_epochs`). -/
theorem C122_violated_rest {σ κ : Type} {rank : Nat} {D : Nat → Dataset σ (Smp C) κ} (hD : ∀ w < 2, (D w).ResumesUpToEnd) (hE : ∀ w < 2, ResumesBehindEnd (D w)) {f : Nat → Nat → Smp C} {st fn : Nat → Nat → σ}
    (hr : ∀ w < 2, PassRun (D w) (f w) (epochEnds 2) (st w) (fn w)) :
    ∃ us cs, LIncP 2 rank D us cs 1 ∧ cs 0 = 2 ∧ cs 1 = 1 ∧ ∀ cfg T xs past s, LifeP 2 rank D us 1 cfg T xs past s →
      (∀ hk : 0 < past.length, past[0].length = 3) ∧ ∀ k (hk : k < past.length), past[k].head?.map (·.worker) = some 1 := by
  have hn : 0 < 2 := by decide
  have hcfg : ∀ w < 2, 2 ≤ ((fun _ => ⟨4, 2, fun _ => false⟩ : Nat → Loader.Cfg) w).keep ∧ 2 * 2 ≤ ((fun _ => ⟨4, 2, fun _ => false⟩ : Nat → Loader.Cfg) w).minN := fun _ _ => ⟨Nat.le_refl _, Nat.le_refl _⟩
  have hinf : ∀ w < 2, ∀ c, ∃ j > c, epochEnds 2 j = true := by
    intro w _ c
    refine ⟨2 * (c + 1), by omega, ?_⟩
    simp [epochEnds]
  obtain ⟨T, xs, hl⟩ := C122_loader_goes_on hn hD hE hr hinf (LIncP.new (n := 2) (rank := rank) (D := D)) (fun _ => ⟨4, 2, fun _ => false⟩)
  have hx : ∀ w, ∃ a b, w < 2 → xs 0 w = [a, b] := by
    intro w
    by_cases hw : w < 2
    · have h1 := epoch_length (C122_loader_passes hn hD hE hr .new hl hw 0) (by decide)
      simp only [inLoops, List.range_zero, List.map_nil, List.sum_nil, Nat.add_zero, Nat.zero_mod, Nat.sub_zero] at h1
      match h2 : xs 0 w, h1 with
      | [a, b], _ => exact ⟨a, b, fun _ => rfl⟩
    · exact ⟨(0, f 0 0), (0, f 0 0), fun h => absurd h hw⟩
  choose a b hab using hx
  obtain ⟨s, h1, h2, h3, h4, h5⟩ := reach_three a b
  have hreach : Reach 2 (answers (turns 2 0 (xs 0))) s := by
    refine reach_congr (fun p hp => ?_) h1
    have : logical 2 0 p < 2 := logical_lt (by decide)
    funext i
    unfold answers turns
    rw [hab _ this]
  have hl' : LifeP 2 rank D (fun w => wfresh (D w)) 0 (fun _ => ⟨4, 2, fun _ => false⟩) T xs [] s := { hl with reach := hreach }
  have hlen : (fromWorker 0 (Loader.delivered [] s)).length = 2 ∧ (fromWorker 1 (Loader.delivered [] s)).length = 1 := by
    unfold Loader.delivered
    rw [h3]
    exact ⟨rfl, rfl⟩
  have hpos : ∀ w < 2, 0 < (fromWorker w (Loader.delivered [] s)).length := by
    intro w hw
    match w, hw with
    | 0, _ => rw [hlen.1]; decide
    | 1, _ => rw [hlen.2]; decide
  obtain ⟨k, hk⟩ := C122_loader_saved_partial hn hD hE hr .new hcfg hl' hpos (by
    intro w hw hlt
    exfalso
    have hlt : (xs 0 w).length < answeredP 2 0 s w := hlt
    rw [hab w hw] at hlt
    match w, hw with
    | 0, _ => rw [h4] at hlt; simp at hlt
    | 1, _ => rw [h5] at hlt; simp at hlt)
  have hnext : k.next = 1 := by
    unfold saveP at hk
    obtain ⟨k', -, h6⟩ := Option.map_eq_some_iff.1 hk
    subst h6
    show nextP 2 s = 1
    unfold nextP
    rw [h2, h3]
    rfl
  have hinc := LIncP.restored .new hcfg hl' (by rw [h2]; decide) hpos hk
  rw [hnext] at hinc
  refine ⟨_, _, hinc, by simp only [hlen.1], by simp only [hlen.2], ?_⟩
  intro cfg T' xs' past' s' hl2
  have hp : ∀ w (hw : w < 2), (xs' 0 w).length = 2 - (0 + (fromWorker w (Loader.delivered [] s)).length) % 2 :=
    fun w hw => epoch_length (C122_loader_passes hn hD hE hr hinc hl2 hw 0) (by decide)
  refine ⟨fun hk0 => ?_, fun k' hk' => ?_⟩
  · rw [C122_loader_length hn hD hE hr hinc hl2 0 hk0]
    simp only [show List.range 2 = [0, 1] from rfl, List.map_cons, List.map_nil, List.sum_cons, List.sum_nil]
    rw [hp 0 (by decide), hp 1 (by decide), hlen.1, hlen.2]
    rfl
  · exact C122_loader_first hn hD hE hr hinc hl2 k' hk'

/-! ### A case -/

/-- Two datasets with 4 and 6 samples, 2 workers, virtual epochs of 4 batches meet all hypotheses of `C122_training_loader_partial` and of `C122_violated_rest`; there is a history with one save. -/
theorem exEpochs : ∃ (A : Nat → AnyDs Nat) (f : Nat → Nat → Smp Nat) (st fn : Nat → Nat → Σ v, (A v).σ),
    (∀ i < 2, trainDs exR exE [exDisk "a" 10 4, exDisk "b" 100 6] { exO with epochLength := 4 } ⟨0, 1, 2⟩ i = .ok (A i)) ∧
    (∀ i < 2, (bundle A i).ResumesUpToEnd ∧ ResumesBehindEnd (bundle A i) ∧ PassRun (bundle A i) (f i) (epochEnds 2) (st i) (fn i)) := by
  have hl : ∀ (name : String) (first n : Nat), first ∈ [10, 100] → n ≤ 6 → (exDisk name first n).Loads := by
    intro name first n h1 h2
    refine ⟨?_, fun _ _ => ⟨_, rfl⟩, ?_⟩
    · intro s hs
      simp only [exDisk, List.mem_singleton] at hs
      subst hs
      simp only [exDisk, if_true]
      exact exTarN_groups n h2 first h1
    · intro n hn
      simp only [exDisk] at hn
      cases hn
      decide
  have hds : ∀ d ∈ [exDisk "a" 10 4, exDisk "b" 100 6], d.Ok ∧ d.Enough ⟨0, 1, 2⟩ ∧ d.Loads := by
    intro d hd
    simp only [List.mem_cons, List.not_mem_nil, or_false] at hd
    rcases hd with rfl | rfl
    · exact ⟨exDisk_ok _ _ _ (by decide), by unfold Disk.Enough; decide, hl _ _ _ (by decide) (by decide)⟩
    · exact ⟨exDisk_ok _ _ _ (by decide), by unfold Disk.Enough; decide, hl _ _ _ (by decide) (by decide)⟩
  have hE : exE.Accepts exO.batchSize exO.packing :=
    ⟨by simp [exE], by simp [exE, UserMap.Accepts], by simp [exE], by simp [exE], by
      intro n hn
      cases hn
      exact ⟨by decide, fun _ _ => ⟨_, rfl⟩⟩, by simp [exO]⟩
  obtain ⟨A0, h0⟩ := C104_accepting (fun _ => exR) exE [exDisk "a" 10 4, exDisk "b" 100 6] { exO with epochLength := 4 } ⟨0, 1, 2⟩ (by simp) hds (by decide) hE
    ⟨by simp [exO], by simp [exO]⟩
  have h : ∀ i, ∃ (A : AnyDs Nat) (f : Nat → Smp Nat), i < 2 → trainDs exR exE [exDisk "a" 10 4, exDisk "b" 100 6] { exO with epochLength := 4 } ⟨0, 1, 2⟩ i = .ok A ∧
      A.D.ResumesUpToEnd ∧ ResumesBehindEnd A.D ∧ ∃ st fn, PassRun A.D f (epochEnds 2) st fn := by
    have one : ∀ i < 2, _ := fun i (hi : i < 2) => train_passes exR exE [exDisk "a" 10 4, exDisk "b" 100 6] { exO with epochLength := 4 } ⟨0, 1, 2⟩ i (by simp)
      (fun d hd => ⟨(hds d hd).1, (hds d hd).2.1⟩) (by decide) hi ⟨by simp [exE], by simp [exE, UserMap.Plain], by simp [exE], rfl, by simp [exO]⟩ ⟨by simp [exO], by simp [exO]⟩
      (h0 i hi).1 (h0 i hi).2 (match i, hi with | 0, _ => by decide | 1, _ => by decide)
    intro i
    by_cases hi : i < 2
    · obtain ⟨A, f, h1, -, h2, h3, h4⟩ := one i hi
      refine ⟨A, f, fun _ => ⟨h1, h2, h3, ?_⟩⟩
      match i, hi with
      | 0, _ => exact h4
      | 1, _ => exact h4
    · obtain ⟨A, f, _⟩ := one 0 (by decide)
      exact ⟨A, f, fun h => absurd h hi⟩
  choose A f h using h
  have hst : ∀ i, ∃ st fn : Nat → Σ v, (A v).σ, i < 2 → PassRun (bundle A i) (f i) (epochEnds 2) st fn := by
    intro i
    by_cases hi : i < 2
    · obtain ⟨-, -, -, st, fn, h⟩ := h i hi
      exact ⟨_, _, fun _ => bundle_passRun h⟩
    · exact ⟨fun _ => ⟨i, (A i).D.init⟩, fun _ => ⟨i, (A i).D.init⟩, fun h => absurd h hi⟩
  choose st fn hrun using hst
  exact ⟨A, f, st, fn, fun i hi => (h i hi).1, fun i hi => ⟨bundle_upToEnd (h i hi).2.1, bundle_behind (h i hi).2.2.1, hrun i hi⟩⟩

/-- The history of `C122_violated_rest` for this training: the state is saved when 3 of 4 batches have been delivered. -/
example : ∃ (A : Nat → AnyDs Nat) (us : Nat → _) (cs : Nat → Nat), (∀ i < 2, trainDs exR exE [exDisk "a" 10 4, exDisk "b" 100 6] { exO with epochLength := 4 } ⟨0, 1, 2⟩ i = .ok (A i)) ∧
    LIncP 2 0 (bundle A) us cs 1 ∧ cs 0 = 2 ∧ cs 1 = 1 ∧
    ∃ T xs, LifeP 2 0 (bundle A) us 1 (fun _ => ⟨4, 2, fun _ => false⟩) T xs [] (Loader.start (Got Nat) 2) := by
  obtain ⟨A, f, st, fn, h1, h2⟩ := exEpochs
  obtain ⟨us, cs, h3, h4, h5, -⟩ := C122_violated_rest (rank := 0) (fun w hw => (h2 w hw).1) (fun w hw => (h2 w hw).2.1) (fun w hw => (h2 w hw).2.2)
  refine ⟨A, us, cs, h1, h3, h4, h5, C122_loader_goes_on (by decide) (fun w hw => (h2 w hw).1) (fun w hw => (h2 w hw).2.1) (fun w hw => (h2 w hw).2.2) ?_ h3 _⟩
  intro w _ c
  refine ⟨2 * (c + 1), by omega, ?_⟩
  simp [epochEnds]

end Verif.Pipeline
