import Verif.Loader.WorkerLemmas
import Verif.Loader.TorchProps
import Verif.Stream.Example

/-! # C36, C37: saving and restoring a loader with worker processes -/

namespace Verif.Loader

open Verif.Stream

variable {σ κ C : Type}

/-! ## One worker -/

/-- `Outs D cfg gid u xs p`: a worker process started in state `u` has answered with the samples `xs` so far and is in state `p`
now. -/
inductive Outs (D : Dataset σ (Smp C) κ) (cfg : Cfg) (gid : Nat) (u : σ × WAttr κ) :
    List (Nat × Smp C) → σ × WAttr κ → Prop where
  | nil : Outs D cfg gid u [] u
  | next {xs p b q} : Outs D cfg gid u xs p → Obs (wstep D cfg gid) p (.item b q) → Outs D cfg gid u (xs ++ [b]) q

/-- The uninterrupted run of the dataset begins with the samples `f 0, ..., f (N - 1)`. -/
def Begins (D : Dataset σ (Smp C) κ) (f : Nat → Smp C) (N : Nat) : Prop := ∃ st, RunOf D f N st

/-- Histories of one worker. `Inc D gid M N u c`: `u` is a state in which a worker process can start after any number of saves
and restores, and `c` samples of this worker have been delivered to the user before.

In each process: the worker has answered `m` times, up to at most `N` samples in total (its pass has not ended); the user
has got at least one and at most `m` of these samples (`c < c' ≤ c + m`), and the worker is at most `M` samples ahead of
the user (`c + m ≤ c' + M`; for a loader with `n` workers `M = 2 n`, see `C35_prefetch`). Then the main process asks for the state
after the sample with index `c' - 1`, and a new process is started with it. The configuration (the timer) may be different in each
process. -/
inductive Inc (D : Dataset σ (Smp C) κ) (gid M N : Nat) : σ × WAttr κ → Nat → Prop where
  | fresh : Inc D gid M N (wfresh D) 0
  | restored {u : σ × WAttr κ} {c : Nat} {cfg : Cfg} {xs : List (Nat × Smp C)} {p : σ × WAttr κ} {c' : Nat} {k : WState κ} :
      Inc D gid M N u c → 2 ≤ cfg.keep → M ≤ cfg.minN →
      Outs D cfg gid u xs p → c + xs.length ≤ N →
      c < c' → c' ≤ c + xs.length → c + xs.length ≤ c' + M →
      getCheckpoint p.2 (c' - 1) = some k → Inc D gid M N (wresume D k) c'

/-- What is known when a worker process starts. -/
structure Begin (D : Dataset σ (Smp C) κ) (st : Nat → σ) (lo N c : Nat) (u : σ × WAttr κ) : Prop where
  at_ : At D st lo N u
  idx : u.2.idx + u.2.skip = c
  cps : ∃ d, u.2.cps = [⟨d, u.2.idx⟩]
  le : c ≤ N

/-- What is known while it runs. -/
structure During (D : Dataset σ (Smp C) κ) (st : Nat → σ) (lo M N c r m : Nat) (p : σ × WAttr κ) : Prop where
  at_ : At D st lo N p
  idx : p.2.idx + p.2.skip = c + m
  run : 0 < m → p.2.skip = 0 ∧ p.2.ctl = .run false true
  spaced : Spaced M r p.2

theorem Begin.during {D : Dataset σ (Smp C) κ} {st : Nat → σ} {lo N c M : Nat} {u : σ × WAttr κ} (h : Begin D st lo N c u) :
    During D st lo M N c u.2.idx 0 u := by
  obtain ⟨d, hd⟩ := h.cps
  refine ⟨h.at_, h.idx, fun h => absurd h (by omega), ⟨?_, .inl ⟨d, hd⟩⟩⟩
  intro cp hcp
  rw [hd, List.mem_singleton] at hcp
  rw [hcp]
  exact Nat.le_refl _

theorem During.step {D : Dataset σ (Smp C) κ} (hD : D.ResumesExactly) {f : Nat → Smp C} {cfg : Cfg} {gid : Nat}
    {st : Nat → σ} {lo M N c r m : Nat} (hr : RunFrom D f lo N st) (hk : 2 ≤ cfg.keep) (hm : M ≤ cfg.minN) {p : σ × WAttr κ}
    (h : During D st lo M N c r m p) (hN : c + m < N) :
    ∃ q, Obs (wstep D cfg gid) p (.item (c + m, (f (c + m)).addKey (loaderKey gid (c + m))) q) ∧
      During D st lo M N c r (m + 1) q := by
  obtain ⟨s, x⟩ := p
  obtain ⟨q, h1, h2, h3, h4, h5, kk, y, h6, h7, h8⟩ := At.nextFresh (cfg := cfg) (gid := gid) hD hr h.at_ (by rw [h.idx]; exact hN)
  have hi := h.idx
  simp only at hi
  rw [hi] at h1 h3 h7
  refine ⟨q, h1, h2, by omega, fun _ => ⟨h4, h5⟩, ?_⟩
  rw [h8]
  exact h.spaced.store hk hm h6 (by rw [h7]; simp only; omega) kk

theorem During.outs {D : Dataset σ (Smp C) κ} (hD : D.ResumesExactly) {f : Nat → Smp C} {cfg : Cfg} {gid : Nat}
    {st : Nat → σ} {lo M N c : Nat} (hr : RunFrom D f lo N st) (hk : 2 ≤ cfg.keep) (hm : M ≤ cfg.minN) {u p : σ × WAttr κ}
    {xs : List (Nat × Smp C)} (h : Begin D st lo N c u) (ho : Outs D cfg gid u xs p) (hN : c + xs.length ≤ N) :
    xs = (List.range xs.length).map (fun j => (c + j, (f (c + j)).addKey (loaderKey gid (c + j)))) ∧
    During D st lo M N c u.2.idx xs.length p := by
  induction ho with
  | nil => exact ⟨rfl, h.during⟩
  | @next xs p b q _ hob ih =>
    rw [List.length_append, List.length_singleton] at hN ⊢
    obtain ⟨h1, h2⟩ := ih (by omega)
    obtain ⟨q', h3, h4⟩ := h2.step (cfg := cfg) (gid := gid) hD hr hk hm (by omega)
    cases hob.det h3
    refine ⟨?_, h4⟩
    rw [List.range_succ, List.map_append, ← h1]
    rfl

theorem Inc.begin {D : Dataset σ (Smp C) κ} (hD : D.ResumesExactly) {f : Nat → Smp C} {gid M N : Nat}
    {st : Nat → σ} (hr : RunOf D f N st) {u : σ × WAttr κ} {c : Nat} (h : Inc D gid M N u c) : Begin D st 0 N c u := by
  induction h with
  | fresh =>
    refine ⟨⟨.init, ?_, Nat.zero_le _, Nat.zero_le _, ?_⟩, rfl, ⟨none, rfl⟩, Nat.zero_le _⟩
    · simp only [wfresh, hr.init]; exact Dataset.Equiv.refl _
    · intro cp hcp
      simp only [wfresh, List.mem_singleton] at hcp
      subst hcp
      refine ⟨Nat.zero_le _, Nat.zero_le _, .init, ?_⟩
      simp only [resumeOpt, hr.init]; exact Dataset.Equiv.refl _
  | @restored u c cfg xs p c' k _ hk hm ho hN hc1 hc2 hc3 hg ih =>
    obtain ⟨-, hd⟩ := During.outs hD hr.run hk hm ih ho hN
    have hskip := (hd.run (by omega)).1
    have hidx := hd.idx
    obtain ⟨cp, h1, h2, h3⟩ := hd.spaced.find (last := c' - 1) (by have := ih.idx; omega) (by omega)
    rw [h3] at hg
    cases hg
    have hok := hd.at_.cps cp h1
    refine ⟨⟨hok.2.2.1, hok.2.2.2, hok.1, hok.2.1, ?_⟩, ?_, ⟨_, rfl⟩, by omega⟩
    · intro cp' hcp'
      simp only [wresume, List.mem_singleton] at hcp'
      subst hcp'
      exact CpOk.save hD hok.1 hok.2.1 hok.2.2.1 hok.2.2.2
    · simp only [wresume]; omega

/-- C37: Whenever the main process asks a worker for the state at a sample that was delivered from it, the worker has a
checkpoint for it, however far (up to the prefetch limit) it has run ahead and whenever its timer has fired. -/
theorem C37_checkpoint_available_partial {D : Dataset σ (Smp C) κ} (hD : D.ResumesExactly) {f : Nat → Smp C} {gid M N : Nat}
    (hr : Begins D f N) {u : σ × WAttr κ} {c : Nat} (h : Inc D gid M N u c)
    {cfg : Cfg} (hk : 2 ≤ cfg.keep) (hm : M ≤ cfg.minN) {xs : List (Nat × Smp C)} {p : σ × WAttr κ}
    (ho : Outs D cfg gid u xs p) (hN : c + xs.length ≤ N) {c' : Nat} (hc1 : c < c') (hc2 : c' ≤ c + xs.length)
    (hc3 : c + xs.length ≤ c' + M) :
    ∃ k, getCheckpoint p.2 (c' - 1) = some k ∧ k.idx ≤ c' ∧ k.idx + k.offset = c' := by
  obtain ⟨st, hr⟩ := hr
  have ih := h.begin hD hr
  obtain ⟨-, hd⟩ := During.outs hD hr.run hk hm ih ho hN
  have hskip := (hd.run (by omega)).1
  have hidx := hd.idx
  obtain ⟨cp, h1, h2, h3⟩ := hd.spaced.find (last := c' - 1) (by have := ih.idx; omega) (by omega)
  exact ⟨_, h3, by simp only; omega, by simp only; omega⟩

/-- C36 for one worker: after any number of saves and restores, each at any point, with any prefetching and any timer, a worker
answers with exactly the samples that follow the ones delivered to the user, as long as the pass goes on. -/
theorem C36_worker_exact_partial {D : Dataset σ (Smp C) κ} (hD : D.ResumesExactly) {f : Nat → Smp C} {gid M N : Nat}
    (hr : Begins D f N) {u : σ × WAttr κ} {c : Nat} (h : Inc D gid M N u c)
    {cfg : Cfg} (hk : 2 ≤ cfg.keep) (hm : M ≤ cfg.minN) (m : Nat) (hN : c + m ≤ N) :
    ∃ p, Outs D cfg gid u ((List.range m).map fun j => (c + j, (f (c + j)).addKey (loaderKey gid (c + j)))) p := by
  obtain ⟨st, hr⟩ := hr
  have hb := h.begin hD hr
  suffices h : ∃ p, Outs D cfg gid u ((List.range m).map fun j => (c + j, (f (c + j)).addKey (loaderKey gid (c + j)))) p ∧
      During D st 0 M N c u.2.idx m p from h.imp fun _ h => h.1
  induction m with
  | zero => exact ⟨u, .nil, hb.during⟩
  | succ m ih =>
    obtain ⟨p, h1, h2⟩ := ih (by omega)
    obtain ⟨q, h3, h4⟩ := h2.step (cfg := cfg) (gid := gid) hD hr.run hk hm (by omega)
    refine ⟨q, ?_, h4⟩
    rw [List.range_succ, List.map_append]
    exact .next h1 h3

/-- and if at least one sample of the pass is left, the pass then ends where it does in the uninterrupted run. -/
theorem C36_worker_pass_partial {D : Dataset σ (Smp C) κ} (hD : D.ResumesExactly) {f : Nat → Smp C} {gid M N : Nat} {t t' : σ}
    {xs : List (Smp C)} (hx : xs = (List.range N).map f) (hpass : D.Items D.init xs t) (hfin : Obs D.step t (.fin t'))
    {u : σ × WAttr κ} {c : Nat} (h : Inc D gid M N u c)
    {cfg : Cfg} (hk : 2 ≤ cfg.keep) (hm : M ≤ cfg.minN) (hc : c < N) :
    ∃ p p', Outs D cfg gid u ((List.range (N - c)).map fun j => (c + j, (f (c + j)).addKey (loaderKey gid (c + j)))) p ∧
      Obs (wstep D cfg gid) p (.fin p') := by
  have hst : ∀ N, ∀ t, D.Items D.init ((List.range N).map f) t → ∃ st, RunOf D f N st ∧ st N = t := by
    intro N
    induction N with
    | zero =>
      intro t h
      cases h
      exact ⟨fun _ => D.init, ⟨rfl, fun j hj => by omega⟩, rfl⟩
    | succ N ih =>
      intro t h
      rw [List.range_succ, List.map_append] at h
      unfold Dataset.Items at h
      rw [List.map_append] at h
      obtain ⟨t1, h1, h2⟩ := h.append_inv
      obtain ⟨st, h3, h4⟩ := ih t1 h1
      simp only [List.map_cons, List.map_nil] at h2
      cases h2 with
      | item h5 h6 =>
        cases h6
        refine ⟨fun j => if j = N + 1 then t else st j, ⟨by simp [h3.init], ?_⟩, by simp⟩
        intro j hj
        rw [if_neg (by omega)]
        by_cases hjN : j = N
        · subst hjN; rw [if_pos rfl, h4]; exact h5
        · rw [if_neg (by omega)]; exact h3.item j (by omega)
  obtain ⟨st, hr, hN⟩ := hst N t (by rw [← hx]; exact hpass)
  have hb := h.begin hD hr
  obtain ⟨p, hp⟩ := C36_worker_exact_partial hD ⟨st, hr⟩ h hk hm (N - c) (by omega)
  refine ⟨p, ?_⟩
  obtain ⟨-, hd⟩ := During.outs hD hr.run hk hm hb hp (by simp; omega)
  rw [List.length_map, List.length_range] at hd
  obtain ⟨hskip, hctl⟩ := hd.run (by omega)
  have hidx := hd.idx
  have heq : D.Equiv p.1 t := by
    have := hd.at_.equiv
    rwa [show p.2.idx = N by omega, hN] at this
  obtain ⟨o, h1, h2⟩ := Dataset.Equiv.sim _ _ heq.symm _ hfin
  cases h2 with
  | fin h2 =>
    obtain ⟨s, x⟩ := p
    exact ⟨_, hp, wobs_fin h1 hctl⟩

/-- Every sample of a worker can be restored from its restore key, if those of the dataset can. -/
theorem C34_loader_worker {D : Dataset σ (Smp C) κ} (gid idx : Nat) (a : Smp C) (h : D.restoreSample a.key = some a) :
    wrestoreSample D (a.addKey (loaderKey gid idx)).key = some (a.addKey (loaderKey gid idx)) := by
  simp [wrestoreSample, Smp.addKey, loaderKey, h]

/-! ## The whole loader -/

/-- What worker processes and main process have done in one life of a loader with `n` workers, restored (or new) with the start
states `us` of the logical workers and worker offset `off`: `g w` are the answers of logical worker `w` and `S w` its states; `s` is
the state of the iterator. -/
structure Life (n rank : Nat) (D : Nat → Dataset σ (Smp C) κ) (us : Nat → σ × WAttr κ) (off : Nat) (cfg : Nat → Cfg)
    (S : Nat → Nat → σ × WAttr κ) (g : Nat → Nat → Nat × Smp C) (s : Sys (Got C)) : Prop where
  start : ∀ w < n, S w 0 = us w
  answer : ∀ w < n, ∀ i, Obs (wstep (D w) (cfg w) (rank * n + w)) (S w i) (.item (g w i) (S w (i + 1)))
  reach : Reach n (fun p i => some ⟨logical n off p, (g (logical n off p) i).1, (g (logical n off p) i).2⟩) s

/-- What `next` has returned. -/
def got (s : Sys (Got C)) : List (Got C) := s.hist.map (·.2)

/-- The worker process that stands for logical worker `w`. -/
def process (n off w : Nat) : Nat := (w + off) % n

/-- Number of samples delivered from worker `w` in this life. -/
def deliveredFrom (s : Sys (Got C)) (w : Nat) : Nat := ((got s).filter (fun x => x.worker = w)).length

/-- Histories of a loader with `n` workers: `us` and `off` are what it starts with, `cs w` samples of worker `w` have been delivered
before. At each save the user has got at least one sample of each worker since the start of the process (without this C36 is
false, see below). All saved `next_worker_id` satisfy `ok`. -/
inductive LInc (n rank : Nat) (D : Nat → Dataset σ (Smp C) κ) (ok : Nat → Prop) : (Nat → σ × WAttr κ) → (Nat → Nat) → Nat → Prop where
  | new : LInc n rank D ok (fun w => wfresh (D w)) (fun _ => 0) 0
  | restored {us cs off cfg S g} {s : Sys (Got C)} {k : LState κ} :
      LInc n rank D ok us cs off → (∀ w < n, 2 ≤ (cfg w).keep ∧ 2 * n ≤ (cfg w).minN) →
      Life n rank D us off cfg S g s → s.phase = .idle → (∀ w < n, 0 < deliveredFrom s w) →
      saveLoader n (fun w => (S w (s.procs (process n off w)).made).2) (got s) = some k →
      ok k.next →
      LInc n rank D ok (fun w => wresume (D w) (k.workers w)) (fun w => cs w + deliveredFrom s w) k.next

/-- The uninterrupted stream of a worker whose passes never end. -/
def Stream (D : Dataset σ (Smp C) κ) (f : Nat → Smp C) : Prop := ∀ N, Begins D f N

theorem logical_eq {n off p : Nat} : logical n off p = (p + n - off) % n := by
  simp [logical, Worker.rankWorkerId]

theorem logical_lt {n off p : Nat} (hn : 0 < n) : logical n off p < n := by
  rw [logical_eq]; exact Nat.mod_lt _ hn

theorem logical_process {n off w : Nat} (hoff : off < n) (hw : w < n) : logical n off (process n off w) = w := by
  rw [logical_eq, process]
  by_cases h : w + off < n
  · rw [Nat.mod_eq_of_lt h, show w + off + n - off = w + n by omega, Nat.add_mod_right, Nat.mod_eq_of_lt hw]
  · have h1 : (w + off) % n = w + off - n := by
      rw [show w + off = (w + off - n) + n by omega, Nat.add_mod_right, Nat.mod_eq_of_lt (by omega)]
      omega
    rw [h1, show w + off - n + n - off = w by omega, Nat.mod_eq_of_lt hw]

theorem process_logical {n off p : Nat} (hoff : off < n) (hp : p < n) : process n off (logical n off p) = p := by
  rw [logical_eq, process]
  by_cases h : off ≤ p
  · rw [show p + n - off = p - off + n by omega, Nat.add_mod_right, Nat.mod_eq_of_lt (a := p - off) (by omega),
      show p - off + off = p by omega, Nat.mod_eq_of_lt hp]
  · rw [Nat.mod_eq_of_lt (a := p + n - off) (by omega), show p + n - off + off = p + n by omega, Nat.add_mod_right,
      Nat.mod_eq_of_lt hp]

theorem sticky_some {α : Type} (f : Nat → Nat → α) : Sticky (fun p i => some (f p i)) := by
  intro w k h; cases h

/-- Facts about one life. -/
theorem Life.hist {n rank : Nat} {D : Nat → Dataset σ (Smp C) κ} {us : Nat → σ × WAttr κ} {off : Nat} {cfg : Nat → Cfg}
    {S : Nat → Nat → σ × WAttr κ} {g : Nat → Nat → Nat × Smp C} {s : Sys (Got C)} (h : Life n rank D us off cfg S g s)
    (hoff : off < n) {w : Nat} (hw : w < n) :
    (got s).filter (fun x => x.worker = w) = (List.range (deliveredFrom s w)).map (fun i => ⟨w, (g w i).1, (g w i).2⟩) ∧
    (s.procs (process n off w)).made ≤ deliveredFrom s w + 2 * n ∧ deliveredFrom s w ≤ (s.procs (process n off w)).made := by
  have hn : 0 < n := by omega
  have hp : process n off w < n := Nat.mod_lt _ hn
  have hs := sticky_some (fun p i => (⟨logical n off p, (g (logical n off p) i).1, (g (logical n off p) i).2⟩ : Got C))
  obtain ⟨h1, -⟩ := C35_worker_stream hs h.reach hp
  -- the samples of the logical worker are the ones of its process
  have hmem : ∀ x ∈ s.hist, x.1 < n ∧ x.2.worker = logical n off x.1 := by
    obtain ⟨got', low, hg⟩ := h.reach.good hn hs
    intro x hx
    rw [hg.inv.hist, List.mem_filterMap] at hx
    obtain ⟨q, -, hq⟩ := hx
    simp only [Option.map_some, Option.some.injEq] at hq
    rw [← hq]
    exact ⟨Nat.mod_lt _ hn, rfl⟩
  have h2 : (got s).filter (fun x => x.worker = w) = (ofWorker (process n off w) s.hist).map (·.2) := by
    unfold got ofWorker
    rw [List.filter_map]
    congr 1
    apply List.filter_congr
    intro x hx
    obtain ⟨h3, h4⟩ := hmem x hx
    simp only [Function.comp, h4, decide_eq_decide]
    constructor
    · intro h5; rw [← h5, process_logical hoff h3]
    · intro h5; rw [h5, logical_process hoff hw]
  have hlen : deliveredFrom s w = (ofWorker (process n off w) s.hist).length := by
    unfold deliveredFrom; rw [h2, List.length_map]
  refine ⟨?_, ?_, ?_⟩
  · rw [h2, hlen]
    conv => lhs; rw [h1]
    rw [List.map_filterMap]
    simp only [Option.map_some, logical_process hoff hw]
    rw [List.filterMap_eq_map']
  · rw [hlen]
    rcases Nat.eq_zero_or_pos (s.procs (process n off w)).made with h0 | h0
    · omega
    · have := C35_prefetch hs h.reach hp (i := (s.procs (process n off w)).made - 1) (by omega) (by simp)
      omega
  · -- a delivered sample has been made
    obtain ⟨got', low, hg⟩ := h.reach.good hn hs
    obtain ⟨c, hc1, hc2⟩ := ofWorker_upto (out := fun p i => some (⟨logical n off p, (g (logical n off p) i).1,
      (g (logical n off p) i).2⟩ : Got C)) hp low
    have : s.hist = upto n (fun p i => some (⟨logical n off p, (g (logical n off p) i).1,
      (g (logical n off p) i).2⟩ : Got C)) low := hg.inv.hist
    rw [hlen, this, hc2]
    simp only [Option.map_some, List.filterMap_eq_map', List.length_map, List.length_range]
    rcases Nat.eq_zero_or_pos c with h0 | h0
    · omega
    have h3 := hg.inv.lowgot ((c - 1) * n + process n off w) ((hc1 (c - 1)).1 (by omega))
    rw [pos_mod hp, pos_div hp] at h3
    have hact : s.active (process n off w) = true := by
      cases ha : s.active (process n off w) with
      | true => rfl
      | false =>
        obtain ⟨j, -, hj, -⟩ := hg.inv.ended _ hp (hg.inv.inact _ hp ha).1
        cases hj
    rw [hact] at h3
    have h4 := hg.inv.gotmade _ hp
    rcases h3 with h3 | h3
    · omega
    · cases h3

theorem Inc.mono {D : Dataset σ (Smp C) κ} {gid M N N' : Nat} (hN : N ≤ N') {u : σ × WAttr κ} {c : Nat}
    (h : Inc D gid M N u c) : Inc D gid M N' u c := by
  induction h with
  | fresh => exact .fresh
  | restored _ h1 h2 h3 h4 h5 h6 h7 h8 ih => exact .restored ih h1 h2 h3 (by omega) h5 h6 h7 h8

theorem Life.outs {n rank : Nat} {D : Nat → Dataset σ (Smp C) κ} {us : Nat → σ × WAttr κ} {off : Nat} {cfg : Nat → Cfg}
    {S : Nat → Nat → σ × WAttr κ} {g : Nat → Nat → Nat × Smp C} {s : Sys (Got C)} (h : Life n rank D us off cfg S g s)
    {w : Nat} (hw : w < n) (m : Nat) :
    Outs (D w) (cfg w) (rank * n + w) (us w) ((List.range m).map (g w)) (S w m) := by
  induction m with
  | zero => rw [h.start w hw]; exact .nil
  | succ m ih => rw [List.range_succ, List.map_append]; exact .next ih (h.answer w hw m)

/-- The answers of the workers. -/
theorem Life.answers {n rank : Nat} {D : Nat → Dataset σ (Smp C) κ} (hD : ∀ w < n, (D w).ResumesExactly)
    {f : Nat → Nat → Smp C} (hf : ∀ w < n, Stream (D w) (f w)) {us : Nat → σ × WAttr κ} {off : Nat} {cfg : Nat → Cfg}
    {S : Nat → Nat → σ × WAttr κ} {g : Nat → Nat → Nat × Smp C} {s : Sys (Got C)} (h : Life n rank D us off cfg S g s)
    (hcfg : ∀ w < n, 2 ≤ (cfg w).keep ∧ 2 * n ≤ (cfg w).minN) {w c N : Nat} (hw : w < n)
    (hi : Inc (D w) (rank * n + w) (2 * n) N (us w) c) (i : Nat) :
    g w i = (c + i, (f w (c + i)).addKey (loaderKey (rank * n + w) (c + i))) := by
  obtain ⟨st, hr⟩ := hf w hw (N + c + (i + 1))
  have hb := (hi.mono (N' := N + c + (i + 1)) (by omega)).begin (hD w hw) hr
  obtain ⟨h1, -⟩ := During.outs (M := 2 * n) (hD w hw) hr.run (hcfg w hw).1 (hcfg w hw).2 hb (h.outs hw (i + 1)) (by simp)
  have h2 := congrArg (fun l => l[i]?) h1
  simpa using h2

theorem LInc.inc {n rank : Nat} (hn : 0 < n) {D : Nat → Dataset σ (Smp C) κ} {ok : Nat → Prop} (hD : ∀ w < n, (D w).ResumesExactly)
    {f : Nat → Nat → Smp C} (hf : ∀ w < n, Stream (D w) (f w)) {us : Nat → σ × WAttr κ} {cs : Nat → Nat} {off : Nat}
    (h : LInc n rank D ok us cs off) :
    off < n ∧ ∀ w < n, ∃ N, Inc (D w) (rank * n + w) (2 * n) N (us w) (cs w) := by
  induction h with
  | new => exact ⟨hn, fun w _ => ⟨0, .fresh⟩⟩
  | @restored us cs off cfg S g s k _ hcfg hl hidle hpos hsave hok ih =>
    obtain ⟨hoff, ih⟩ := ih
    unfold saveLoader at hsave
    split at hsave
    · next hall =>
      cases hsave
      refine ⟨?_, ?_⟩
      · simp only [nextWorker]
        cases (got s).getLast? with
        | none => exact hn
        | some x => exact Nat.mod_lt _ hn
      · intro w hw
        obtain ⟨N, hi⟩ := ih w hw
        obtain ⟨h1, h2, h3⟩ := hl.hist hoff hw
        have h4 := hpos w hw
        have hcount : counter (got s) w = cs w + deliveredFrom s w - 1 := by
          unfold counter
          rw [h1]
          obtain ⟨d, hd⟩ := Nat.exists_eq_succ_of_ne_zero (by omega : deliveredFrom s w ≠ 0)
          rw [hd, List.range_succ, List.map_append]
          simp [hl.answers hD hf hcfg hw hi]
        refine ⟨N + (cs w + (s.procs (process n off w)).made), ?_⟩
        show Inc _ _ _ _ _ (cs w + deliveredFrom s w)
        refine Inc.restored (cfg := cfg w) (c := cs w) (c' := cs w + deliveredFrom s w)
          (xs := (List.range (s.procs (process n off w)).made).map (g w)) (N := N + (cs w + (s.procs (process n off w)).made))
          (hi.mono (by omega)) (hcfg w hw).1 (hcfg w hw).2 (hl.outs hw _)
          (by simp) (by omega) (by simp; omega) (by simp; omega) ?_
        rw [← hcount]
        have := List.all_eq_true.1 hall w (List.mem_range.2 hw)
        obtain ⟨x, hx⟩ := Option.isSome_iff_exists.1 this
        simp only [hx, Option.getD_some]
    · cases hsave

/-- C36 (part): whatever the number of workers, after any number of saves and restores (each after every worker has delivered a
sample) with arbitrary schedules and timers: a loader delivers, round robin over its worker processes, from each logical worker exactly the
samples that follow the ones already delivered. (Which process comes first depends on `logical`, see C09.) -/
theorem C36_loader_streams_partial {n rank : Nat} (hn : 0 < n) {D : Nat → Dataset σ (Smp C) κ} {ok : Nat → Prop}
    (hD : ∀ w < n, (D w).ResumesExactly) {f : Nat → Nat → Smp C} (hf : ∀ w < n, Stream (D w) (f w))
    {us : Nat → σ × WAttr κ} {cs : Nat → Nat} {off : Nat} (h : LInc n rank D ok us cs off) {cfg : Nat → Cfg}
    (hcfg : ∀ w < n, 2 ≤ (cfg w).keep ∧ 2 * n ≤ (cfg w).minN)
    {S : Nat → Nat → σ × WAttr κ} {g : Nat → Nat → Nat × Smp C} {s : Sys (Got C)} (hl : Life n rank D us off cfg S g s) :
    got s = (List.range (got s).length).map (fun q =>
      let w := logical n off (q % n)
      ⟨w, cs w + q / n, (f w (cs w + q / n)).addKey (loaderKey (rank * n + w) (cs w + q / n))⟩) := by
  obtain ⟨hoff, hinc⟩ := h.inc hn hD hf
  have hs := sticky_some (fun p i => (⟨logical n off p, (g (logical n off p) i).1, (g (logical n off p) i).2⟩ : Got C))
  obtain ⟨got', low, hg⟩ := hl.reach.good hn hs
  have h1 : got s = (List.range low).map (fun q =>
      ⟨logical n off (q % n), (g (logical n off (q % n)) (q / n)).1, (g (logical n off (q % n)) (q / n)).2⟩) := by
    unfold got
    rw [hg.inv.hist, List.map_filterMap]
    simp only [Option.map_some]
    rw [List.filterMap_eq_map']
  have h2 : (got s).length = low := by rw [h1]; simp
  rw [h2, h1]
  apply List.map_congr_left
  intro q _
  have hw : logical n off (q % n) < n := logical_lt hn
  obtain ⟨N, hi⟩ := hinc _ hw
  rw [hl.answers hD hf hcfg hw hi]

/-- C36 (part): in these circumstances the state can be saved. -/
theorem C36_save_possible_partial {n rank : Nat} (hn : 0 < n) {D : Nat → Dataset σ (Smp C) κ} {ok : Nat → Prop}
    (hD : ∀ w < n, (D w).ResumesExactly) {f : Nat → Nat → Smp C} (hf : ∀ w < n, Stream (D w) (f w))
    {us : Nat → σ × WAttr κ} {cs : Nat → Nat} {off : Nat} (h : LInc n rank D ok us cs off) {cfg : Nat → Cfg}
    (hcfg : ∀ w < n, 2 ≤ (cfg w).keep ∧ 2 * n ≤ (cfg w).minN)
    {S : Nat → Nat → σ × WAttr κ} {g : Nat → Nat → Nat × Smp C} {s : Sys (Got C)} (hl : Life n rank D us off cfg S g s)
    (hpos : ∀ w < n, 0 < deliveredFrom s w) :
    ∃ k, saveLoader n (fun w => (S w (s.procs (process n off w)).made).2) (got s) = some k := by
  obtain ⟨hoff, hinc⟩ := h.inc hn hD hf
  unfold saveLoader
  rw [if_pos]
  · exact ⟨_, rfl⟩
  · rw [List.all_eq_true]
    intro w hw
    have hw := List.mem_range.1 hw
    obtain ⟨N, hi⟩ := hinc w hw
    obtain ⟨h1, h2, h3⟩ := hl.hist hoff hw
    have h4 := hpos w hw
    have hcount : counter (got s) w = cs w + deliveredFrom s w - 1 := by
      unfold counter
      rw [h1]
      obtain ⟨d, hd⟩ := Nat.exists_eq_succ_of_ne_zero (by omega : deliveredFrom s w ≠ 0)
      rw [hd, List.range_succ, List.map_append]
      simp [hl.answers hD hf hcfg hw hi]
    obtain ⟨k, hk, -⟩ := C37_checkpoint_available_partial (hD w hw) (hf w hw (N + (cs w + (s.procs (process n off w)).made)))
      (hi.mono (N' := N + (cs w + (s.procs (process n off w)).made)) (by omega))
      (hcfg w hw).1 (hcfg w hw).2 (hl.outs hw (s.procs (process n off w)).made) (by simp) (c' := cs w + deliveredFrom s w)
      (by omega) (by simp; omega) (by simp; omega)
    rw [hcount, hk]; rfl

/-! ### The order of the workers -/

/-- Sample `q` of the uninterrupted run of the loader. -/
def uninterrupted (n rank : Nat) (f : Nat → Nat → Smp C) (q : Nat) : Got C :=
  ⟨q % n, q / n, (f (q % n) (q / n)).addKey (loaderKey (rank * n + q % n) (q / n))⟩

def cnt (n Q w : Nat) : Nat := ((List.range Q).filter (fun q => q % n = w)).length

theorem cnt_succ (n Q w : Nat) : cnt n (Q + 1) w = cnt n Q w + if Q % n = w then 1 else 0 := by
  unfold cnt
  rw [List.range_succ, List.filter_append, List.length_append, List.filter_singleton]
  split <;> simp_all

theorem cnt_eq {n w : Nat} (hw : w < n) (Q : Nat) : cnt n Q w = Q / n + if w < Q % n then 1 else 0 := by
  induction Q with
  | zero => simp [cnt]
  | succ Q ih =>
    rw [cnt_succ, ih]
    have hm := Nat.mod_lt Q (by omega : n > 0)
    have hd := pos_eq (n := n) Q
    by_cases hc : Q % n + 1 = n
    · have h1 : (Q + 1) / n = Q / n + 1 := by
        have : Q + 1 = (Q / n + 1) * n := by rw [Nat.succ_mul]; omega
        rw [this, Nat.mul_div_cancel _ (by omega)]
      have h2 : (Q + 1) % n = 0 := by
        have : Q + 1 = (Q / n + 1) * n := by rw [Nat.succ_mul]; omega
        rw [this, Nat.mul_mod_left]
      rw [h1, h2]
      split <;> split <;> simp <;> omega
    · have h1 : (Q + 1) / n = Q / n := by
        have : Q + 1 = Q / n * n + (Q % n + 1) := by omega
        rw [this, pos_div (by omega)]
      have h2 : (Q + 1) % n = Q % n + 1 := by
        have : Q + 1 = Q / n * n + (Q % n + 1) := by omega
        rw [this, pos_mod (by omega)]
      rw [h1, h2]
      split <;> split <;> split <;> omega

/-- the position arithmetic of the round robin -/
theorem cnt_add {n : Nat} (hn : 0 < n) (Q q : Nat) :
    (q % n + Q % n) % n = (Q + q) % n ∧ cnt n Q ((Q + q) % n) + q / n = (Q + q) / n := by
  have h1 : (q % n + Q % n) % n = (Q + q) % n := by rw [← Nat.add_mod, Nat.add_comm]
  refine ⟨h1, ?_⟩
  have hw := Nat.mod_lt (Q + q) hn
  rw [cnt_eq hw]
  have ha := Nat.mod_lt Q hn
  have hb := Nat.mod_lt q hn
  have hd := pos_eq (n := n) Q
  have he := pos_eq (n := n) q
  by_cases hc : q % n + Q % n < n
  · have h2 : (Q + q) % n = q % n + Q % n := by rw [← h1, Nat.mod_eq_of_lt hc]
    have h3 : (Q + q) / n = Q / n + q / n := by
      have : Q + q = (Q / n + q / n) * n + (q % n + Q % n) := by rw [Nat.add_mul]; omega
      rw [this, pos_div hc]
    rw [h2, h3, if_neg (by omega)]; omega
  · have h2 : (Q + q) % n = q % n + Q % n - n := by
      rw [← h1, show q % n + Q % n = (q % n + Q % n - n) + n by omega, Nat.add_mod_right, Nat.mod_eq_of_lt (by omega)]
      omega
    have h3 : (Q + q) / n = Q / n + q / n + 1 := by
      have : Q + q = (Q / n + q / n + 1) * n + (q % n + Q % n - n) := by rw [Nat.add_mul, Nat.add_mul]; omega
      rw [this, pos_div (by omega)]
    rw [h2, h3, if_pos (by omega)]; omega

theorem logical_ok {n off p : Nat} (hoff : off < n) (hok : 2 * off % n = 0) (hp : p < n) : logical n off p = (p + off) % n := by
  rw [logical_eq]
  have h2 : 2 * off = 0 ∨ 2 * off = n := by
    obtain ⟨m, hm⟩ := Nat.dvd_of_mod_eq_zero hok
    match m, hm with
    | 0, hm => left; omega
    | 1, hm => right; omega
    | m + 2, hm =>
      exfalso
      have : n * 2 ≤ n * (m + 2) := Nat.mul_le_mul_left _ (by omega)
      omega
  rcases h2 with h2 | h2
  · have : off = 0 := by omega
    subst this
    rw [Nat.sub_zero, Nat.add_mod_right, Nat.add_zero]
  · congr 1; omega

theorem sum_indicator (n j : Nat) : ((List.range n).map (fun w => if j = w then 1 else 0)).sum = if j < n then 1 else 0 := by
  induction n with
  | zero => simp
  | succ n ih =>
    rw [List.range_succ, List.map_append, List.sum_append, ih]
    simp only [List.map_cons, List.map_nil, List.sum_cons, List.sum_nil]
    split <;> split <;> split <;> omega

theorem sum_map_add (n : Nat) (a b : Nat → Nat) :
    ((List.range n).map (fun w => a w + b w)).sum = ((List.range n).map a).sum + ((List.range n).map b).sum := by
  induction n with
  | zero => rfl
  | succ n ih =>
    simp only [List.range_succ, List.map_append, List.sum_append, ih, List.map_cons, List.map_nil, List.sum_cons, List.sum_nil]
    omega

theorem sum_cnt {n : Nat} (hn : 0 < n) (Q : Nat) : ((List.range n).map (cnt n Q)).sum = Q := by
  induction Q with
  | zero =>
    have : cnt n 0 = fun _ => 0 := by funext w; simp [cnt]
    rw [this]
    induction n with
    | zero => rfl
    | succ n ih => simp [List.range_succ]
  | succ Q ih =>
    have : cnt n (Q + 1) = fun w => cnt n Q w + if Q % n = w then 1 else 0 := by
      funext w; exact cnt_succ n Q w
    rw [this, sum_map_add, ih, sum_indicator, if_pos (Nat.mod_lt _ hn)]

theorem cnt_plus (n Q low w : Nat) : cnt n (Q + low) w = cnt n Q w + ((List.range low).filter (fun q => (Q + q) % n = w)).length := by
  unfold cnt
  rw [List.range_add, List.filter_append, List.length_append, List.filter_map, List.length_map]
  rfl

theorem LInc.position {n rank : Nat} (hn : 0 < n) {D : Nat → Dataset σ (Smp C) κ}
    (hD : ∀ w < n, (D w).ResumesExactly) {f : Nat → Nat → Smp C} (hf : ∀ w < n, Stream (D w) (f w))
    {us : Nat → σ × WAttr κ} {cs : Nat → Nat} {off : Nat} (h : LInc n rank D (fun k => 2 * k % n = 0) us cs off) :
    2 * off % n = 0 ∧ ∃ Q, off = Q % n ∧ ∀ w < n, cs w = cnt n Q w := by
  induction h with
  | new => exact ⟨Nat.zero_mod n, 0, (Nat.zero_mod n).symm, fun w _ => rfl⟩
  | @restored us cs off cfg S g s k hinc hcfg hl hidle hpos hsave hok ih =>
    obtain ⟨ih1, Q, ih2, ih3⟩ := ih
    obtain ⟨hoff, -⟩ := hinc.inc hn hD hf
    have h1 := C36_loader_streams_partial hn hD hf hinc hcfg hl
    have hU : got s = (List.range (got s).length).map (fun q => uninterrupted n rank f (Q + q)) := by
      conv => lhs; rw [h1]
      apply List.map_congr_left
      intro q _
      obtain ⟨h2, h3⟩ := cnt_add hn Q q
      have h4 : logical n off (q % n) = (Q + q) % n := by
        rw [logical_ok hoff ih1 (Nat.mod_lt _ hn), ih2, h2]
      simp only [h4, ih3 _ (Nat.mod_lt _ hn), h3, uninterrupted]
    refine ⟨hok, Q + (got s).length, ?_, ?_⟩
    · unfold saveLoader at hsave
      split at hsave
      · cases hsave
        simp only [nextWorker]
        have hlen : (got s).length ≠ 0 := by
          intro h0
          have := hpos 0 hn
          unfold deliveredFrom at this
          rw [List.length_eq_zero_iff.1 h0] at this
          simp at this
        obtain ⟨d, hd⟩ := Nat.exists_eq_succ_of_ne_zero hlen
        have : (got s).getLast? = some (uninterrupted n rank f (Q + d)) := by
          rw [hU, hd, List.range_succ, List.map_append]; simp
        rw [this, hd]
        simp only [Option.map_some, Option.getD_some, uninterrupted]
        rw [Nat.mod_add_mod]
        rfl
      · cases hsave
    · intro w hw
      simp only
      rw [ih3 w hw, cnt_plus]
      congr 1
      unfold deliveredFrom
      conv => lhs; rw [hU]
      rw [List.filter_map, List.length_map]
      rfl

/-- C36 (part): if at each save the next worker `k` satisfies `2 k = 0 mod n`, the restored loader delivers exactly the rest of
the uninterrupted run: with `Q` samples delivered before, its `q`-th sample is sample `Q + q`. -/
theorem C36_loader_exact_partial {n rank : Nat} (hn : 0 < n) {D : Nat → Dataset σ (Smp C) κ}
    (hD : ∀ w < n, (D w).ResumesExactly) {f : Nat → Nat → Smp C} (hf : ∀ w < n, Stream (D w) (f w))
    {us : Nat → σ × WAttr κ} {cs : Nat → Nat} {off : Nat} (h : LInc n rank D (fun k => 2 * k % n = 0) us cs off) {cfg : Nat → Cfg}
    (hcfg : ∀ w < n, 2 ≤ (cfg w).keep ∧ 2 * n ≤ (cfg w).minN)
    {S : Nat → Nat → σ × WAttr κ} {g : Nat → Nat → Nat × Smp C} {s : Sys (Got C)} (hl : Life n rank D us off cfg S g s) :
    got s = (List.range (got s).length).map (fun q => uninterrupted n rank f (((List.range n).map cs).sum + q)) := by
  obtain ⟨ih1, Q, ih2, ih3⟩ := h.position hn hD hf
  obtain ⟨hoff, -⟩ := h.inc hn hD hf
  have h1 := C36_loader_streams_partial hn hD hf h hcfg hl
  have hQ : ((List.range n).map cs).sum = Q := by
    have : (List.range n).map cs = (List.range n).map (cnt n Q) :=
      List.map_congr_left fun w hw => ih3 w (List.mem_range.1 hw)
    rw [this, sum_cnt hn]
  conv => lhs; rw [h1]
  apply List.map_congr_left
  intro q _
  obtain ⟨h2, h3⟩ := cnt_add hn Q q
  have h4 : logical n off (q % n) = (Q + q) % n := by
    rw [logical_ok hoff ih1 (Nat.mod_lt _ hn), ih2, h2]
  simp only [h4, ih3 _ (Nat.mod_lt _ hn), h3, uninterrupted, hQ]

theorem LInc.ok_of {n rank : Nat} {D : Nat → Dataset σ (Smp C) κ} {ok ok' : Nat → Prop} (hn : 0 < n) (himp : ∀ k < n, ok' k)
    {us : Nat → σ × WAttr κ} {cs : Nat → Nat} {off : Nat} (h : LInc n rank D ok us cs off) : LInc n rank D ok' us cs off := by
  induction h with
  | new => exact .new
  | @restored us cs off cfg S g s k hinc hcfg hl hidle hpos hsave hok ih =>
    refine .restored ih hcfg hl hidle hpos hsave (himp _ ?_)
    unfold saveLoader at hsave
    split at hsave
    · cases hsave
      simp only [nextWorker]
      cases (got s).getLast? with
      | none => exact hn
      | some x => exact Nat.mod_lt _ hn
    · cases hsave

/-- C36 for one or two workers: saving and restoring is exact (if every worker has delivered a sample before each save). -/
theorem C36_two_workers_partial {n rank : Nat} (hn : 0 < n) (h2 : n ≤ 2) {D : Nat → Dataset σ (Smp C) κ} {ok : Nat → Prop}
    (hD : ∀ w < n, (D w).ResumesExactly) {f : Nat → Nat → Smp C} (hf : ∀ w < n, Stream (D w) (f w))
    {us : Nat → σ × WAttr κ} {cs : Nat → Nat} {off : Nat} (h : LInc n rank D ok us cs off) {cfg : Nat → Cfg}
    (hcfg : ∀ w < n, 2 ≤ (cfg w).keep ∧ 2 * n ≤ (cfg w).minN)
    {S : Nat → Nat → σ × WAttr κ} {g : Nat → Nat → Nat × Smp C} {s : Sys (Got C)} (hl : Life n rank D us off cfg S g s) :
    got s = (List.range (got s).length).map (fun q => uninterrupted n rank f (((List.range n).map cs).sum + q)) := by
  refine C36_loader_exact_partial hn hD hf (h.ok_of hn fun k hk => ?_) hcfg hl
  match n, k, h2, hk with
  | 1, 0, _, _ => rfl
  | 2, 0, _, _ => rfl
  | 2, 1, _, _ => rfl

end Verif.Loader
