import Verif.Loader.FailResume

/-!
# C122: saving and resuming a worker process over several passes (virtual epochs)

Source: /repo src/megatron/energon/savable_loader.py:353-457, 482-534, 548-573 (the model of C36, `WorkerModel.lean`; worker processes are kept between loops, line 727). C36 and C37 are about one pass in each process. Here the process
goes on with further passes, as in training with `virtual_epoch_length`, and the state is saved in any of them.
-/

namespace Verif.Loader

open Verif.Stream

variable {σ κ C : Type}

/-! ### Specification -/

/-- The uninterrupted passes of a dataset: the samples are `f 0, f 1, ...`; `ends j`: a pass ends behind the first `j` samples. No pass is empty. `st j`: the state when `f (j - 1)` has just been delivered, `fn j`: when the end of
the pass has been reported behind it. -/
structure PassRun (D : Dataset σ (Smp C) κ) (f : Nat → Smp C) (ends : Nat → Bool) (st fn : Nat → σ) : Prop where
  init : st 0 = D.init
  zero : ends 0 = false
  item : ∀ j, Obs D.step (if ends j then fn j else st j) (.item (f j) (st (j + 1)))
  fin : ∀ j, ends j = true → Obs D.step (st j) (.fin (fn j))

/-- Saved behind the last sample of a pass, the dataset goes on with the next pass (for virtual epochs: C21, `Verif.Pipeline.epochizeD_behind`). -/
def ResumesBehindEnd (D : Dataset σ (Smp C) κ) : Prop :=
  ∀ s s', D.Paused false s → Obs D.step s (.fin s') → D.Equiv s' (D.resume (D.save s))

/-- The answers of a worker in one process: samples, and ends of passes. -/
inductive Does (D : Dataset σ (Smp C) κ) (cfg : Cfg) (gid : Nat) (u : σ × WAttr κ) : List (Ev (Nat × Smp C)) → σ × WAttr κ → Prop where
  | nil : Does D cfg gid u [] u
  | item {evs p b q} : Does D cfg gid u evs p → Obs (wstep D cfg gid) p (.item b q) → Does D cfg gid u (evs ++ [.item b]) q
  | fin {evs p q} : Does D cfg gid u evs p → Obs (wstep D cfg gid) p (.fin q) → Does D cfg gid u (evs ++ [.fin]) q

/-- Histories of one worker. `IncP D gid u c`: `u` is a state in which a worker process can start after any number of saves and restores, and `c` samples of this worker have been delivered to the user before. In each process the
worker has gone through any number of passes; when the state is saved the user has got at least one sample of this process, and at most those the worker has answered with. -/
inductive IncP (D : Dataset σ (Smp C) κ) (gid : Nat) : σ × WAttr κ → Nat → Prop where
  | fresh : IncP D gid (wfresh D) 0
  | restored {u : σ × WAttr κ} {c : Nat} {cfg : Cfg} {evs : List (Ev (Nat × Smp C))} {p : σ × WAttr κ} {c' : Nat} {k : WState κ} :
      IncP D gid u c → Does D cfg gid u evs p → c < c' → c' ≤ c + (itemsOf evs).length → getCheckpoint p.2 (c' - 1) = some k → IncP D gid (wresume D k) c'

/-- The samples number `c, c + 1, ..., c + m - 1`, each followed by the end of the pass if it is the last of it. -/
def eventsFrom (f : Nat → Smp C) (ends : Nat → Bool) (gid c m : Nat) : List (Ev (Nat × Smp C)) :=
  (List.range m).flatMap fun i => .item (c + i, (f (c + i)).addKey (loaderKey gid (c + i))) :: if ends (c + i + 1) then [.fin] else []

/-! ### Proofs -/

/-- Where a pass goes on behind the first `j` samples -/
def cur (ends : Nat → Bool) (st fn : Nat → σ) (j : Nat) : σ := if ends j then fn j else st j

/-- The checkpoint holds the state in which the run goes on behind `cp.idx` samples. -/
def CpAt (D : Dataset σ (Smp C) κ) (ends : Nat → Bool) (st fn : Nat → σ) (cp : Cp κ) : Prop :=
  D.Paused false (resumeOpt D cp.data) ∧ D.Equiv (resumeOpt D cp.data) (cur ends st fn cp.idx)

structure AtP (D : Dataset σ (Smp C) κ) (ends : Nat → Bool) (st fn : Nat → σ) (c : Nat) (p : σ × WAttr κ) : Prop where
  paused : D.Paused false p.1
  total : p.2.idx + p.2.skip = c
  pos : (p.2.ctl = .fresh ∧ D.Equiv p.1 (cur ends st fn p.2.idx)) ∨ (p.2.ctl = .run false true ∧ p.2.skip = 0 ∧ D.Equiv p.1 (st p.2.idx))
  cps : ∀ cp ∈ p.2.cps, CpAt D ends st fn cp

theorem fin_of_equiv {D : Dataset σ (Smp C) κ} {s t t' : σ} (h : D.Equiv s t) (ho : Obs D.step t (.fin t')) : ∃ s', Obs D.step s (.fin s') ∧ D.Equiv s' t' := by
  obtain ⟨o, h1, h2⟩ := Dataset.Equiv.sim _ _ h.symm _ ho
  cases h2 with
  | fin h2 => exact ⟨_, h1, h2.symm⟩

theorem item_of_equiv {D : Dataset σ (Smp C) κ} {s t t' : σ} {a : Smp C} (h : D.Equiv s t) (ho : Obs D.step t (.item a t')) : ∃ s', Obs D.step s (.item a s') ∧ D.Equiv s' t' := by
  obtain ⟨o, h1, h2⟩ := Dataset.Equiv.sim _ _ h.symm _ ho
  cases h2 with
  | item h2 => exact ⟨_, h1, h2.symm⟩

/-- What is saved is where the run goes on. -/
theorem saved_at {D : Dataset σ (Smp C) κ} (hD : D.ResumesUpToEnd) (hE : ResumesBehindEnd D) {f : Nat → Smp C} {ends : Nat → Bool} {st fn : Nat → σ} (hr : PassRun D f ends st fn) {s : σ} {j : Nat}
    (hp : D.Paused false s) (h : D.Equiv s (st j) ∨ D.Equiv s (cur ends st fn j)) : CpAt D ends st fn ⟨some (D.save s), j⟩ := by
  refine ⟨.resume hp, ?_⟩
  simp only [resumeOpt]
  have hcur : D.Equiv s (cur ends st fn j) → D.Equiv (D.resume (D.save s)) (cur ends st fn j) := by
    intro h
    rcases hD s hp with h1 | ⟨s', h1, h2⟩
    · exact h1.symm.trans h
    · obtain ⟨t, h3, -⟩ := item_of_equiv h (hr.item j)
      cases Obs.det h1 h3
  rcases h with h | h
  · by_cases he : ends j = true
    · obtain ⟨s', h1, h2⟩ := fin_of_equiv h (hr.fin j he)
      rw [cur, if_pos he]
      exact (hE s s' hp h1).symm.trans h2
    · refine hcur ?_
      rw [cur, if_neg he]
      exact h
  · exact hcur h

theorem wobs_loop {D : Dataset σ (Smp C) κ} {cfg : Cfg} {gid : Nat} {s s' : σ} {x : WAttr κ} (h : Obs D.step s (.fin s')) (hx : x.ctl = .run true true) {o : Out (σ × WAttr κ) (Nat × Smp C)}
    (h2 : Obs (wstep D cfg gid) (s', { x with ctl := .run true false }) o) : Obs (wstep D cfg gid) (s, x) o := by
  generalize ho : Out.fin s' = o' at h
  induction h with
  | item h => cases ho
  | fin h => cases ho; exact .skip (by simp only [wstep, hx, h, Bool.and_self, if_true]) h2
  | err h => cases ho
  | skip h _ ih => exact .skip (by simp only [wstep, hx, h]) (ih ho)

/-- A sample, possibly behind some that are skipped, in this or in later passes. -/
theorem item_next {D : Dataset σ (Smp C) κ} {cfg : Cfg} {gid : Nat} {f : Nat → Smp C} {ends : Nat → Bool} {st fn : Nat → σ}
    (hr : PassRun D f ends st fn) : ∀ (k : Nat) (s : σ) (x : WAttr κ) (lws has : Bool), x.skip = k → x.ctl = .run lws has → D.Paused false s → D.Equiv s (cur ends st fn x.idx) →
    ∃ s', Obs (wstep D cfg gid) (s, x) (.item (x.idx + k, (f (x.idx + k)).addKey (loaderKey gid (x.idx + k)))
        (s', store cfg false (D.save s') { x with idx := x.idx + k + 1, skip := 0, ctl := .run false true })) ∧ D.Paused false s' ∧ D.Equiv s' (st (x.idx + k + 1)) := by
  intro k
  induction k with
  | zero =>
    intro s x lws has hs hx hp h
    obtain ⟨s', h1, h2⟩ := item_of_equiv h (hr.item x.idx)
    refine ⟨s', ?_, hp.item h1, h2⟩
    have := wobs_item (cfg := cfg) (gid := gid) h1 hx hs
    rw [hs] at this
    exact this
  | succ k ih =>
    intro s x lws has hs hx hp h
    obtain ⟨s', h1, h2⟩ := item_of_equiv h (hr.item x.idx)
    have hp' := hp.item h1
    by_cases he : ends (x.idx + 1) = true
    · obtain ⟨s'', h3, h4⟩ := fin_of_equiv h2 (hr.fin _ he)
      obtain ⟨t, h5, h6, h7⟩ := ih s'' { x with skip := x.skip - 1, idx := x.idx + 1, ctl := .run true false } true false (by simp only; omega) rfl (hp'.fin h3) (by
        simp only [cur, if_pos he]; exact h4)
      simp only at h5 h7
      rw [show x.idx + 1 + k = x.idx + (k + 1) by omega] at h5 h7
      exact ⟨t, wobs_skip h1 hx (by omega) (wobs_loop h3 rfl h5), h6, h7⟩
    · obtain ⟨t, h5, h6, h7⟩ := ih s' { x with skip := x.skip - 1, idx := x.idx + 1, ctl := .run true true } true true (by simp only; omega) rfl hp' (by
        simp only [cur, if_neg he]; exact h2)
      simp only at h5 h7
      rw [show x.idx + 1 + k = x.idx + (k + 1) by omega] at h5 h7
      exact ⟨t, wobs_skip h1 hx (by omega) h5, h6, h7⟩

/-- Is the end of a pass next? -/
def AtEnd (ends : Nat → Bool) (p : σ × WAttr κ) : Prop := p.2.ctl = .run false true ∧ ends p.2.idx = true

theorem AtP.item {D : Dataset σ (Smp C) κ} (hD : D.ResumesUpToEnd) (hE : ResumesBehindEnd D) {cfg : Cfg} {gid : Nat} {f : Nat → Smp C} {ends : Nat → Bool} {st fn : Nat → σ} (hr : PassRun D f ends st fn)
    {c : Nat} {p : σ × WAttr κ} (h : AtP D ends st fn c p) (hne : ¬ AtEnd ends p) :
    ∃ q, Obs (wstep D cfg gid) p (.item (c, (f c).addKey (loaderKey gid c)) q) ∧ AtP D ends st fn (c + 1) q ∧ q.2.ctl = .run false true ∧ q.2.idx = c + 1 ∧
      ∃ (kk : κ) (y : WAttr κ), y.cps = p.2.cps ∧ y.idx = c + 1 ∧ q.2 = store cfg false kk y := by
  obtain ⟨s, x⟩ := p
  have key : ∀ (x' : WAttr κ) (lws has : Bool), x'.ctl = .run lws has → x'.idx = x.idx → x'.skip = x.skip → x'.cps = x.cps → D.Equiv s (cur ends st fn x.idx) →
      (∀ o, Obs (wstep D cfg gid) (s, x') o → Obs (wstep D cfg gid) (s, x) o) →
      ∃ q, Obs (wstep D cfg gid) (s, x) (.item (c, (f c).addKey (loaderKey gid c)) q) ∧ AtP D ends st fn (c + 1) q ∧ q.2.ctl = .run false true ∧ q.2.idx = c + 1 ∧
      ∃ (kk : κ) (y : WAttr κ), y.cps = x.cps ∧ y.idx = c + 1 ∧ q.2 = store cfg false kk y := by
    intro x' lws has hctl hidx hskip hcps heq hobs
    obtain ⟨s', h1, h2, h3⟩ := item_next (cfg := cfg) (gid := gid) hr x'.skip s x' lws has rfl hctl h.paused (by rw [hidx]; exact heq)
    have htot : x'.idx + x'.skip = c := by rw [hidx, hskip]; exact h.total
    rw [htot] at h1 h3
    refine ⟨_, hobs _ h1, ⟨h2, ?_, .inr ⟨?_, ?_, ?_⟩, ?_⟩, ?_, ?_, D.save s', { x' with idx := c + 1, skip := 0, ctl := .run false true }, hcps, rfl, rfl⟩
    · rw [(store_idx _ _ _).1, (store_idx _ _ _).2.1]
      rfl
    · exact (store_idx _ _ _).2.2
    · exact (store_idx _ _ _).2.1
    · rw [(store_idx _ _ _).1]; exact h3
    · intro cp hcp
      rcases store_cps _ _ _ cp hcp with hcp | hcp
      · refine h.cps cp ?_
        rw [← hcps]; exact hcp
      · rw [hcp]; exact saved_at hD hE hr h2 (.inl h3)
    · exact (store_idx _ _ _).2.2
    · exact (store_idx _ _ _).1
  rcases h.pos with ⟨hctl, heq⟩ | ⟨hctl, hs, heq⟩
  · exact key { x with ctl := .run true false } true false rfl rfl rfl rfl heq fun o ho => wobs_fresh hctl ho
  · have hend : ends x.idx ≠ true := fun he => hne ⟨hctl, he⟩
    refine key x false true hctl rfl rfl rfl ?_ fun o ho => ho
    rw [cur, if_neg hend]
    exact heq

theorem AtP.finish {D : Dataset σ (Smp C) κ} (hD : D.ResumesUpToEnd) (hE : ResumesBehindEnd D) {cfg : Cfg} {gid : Nat} {f : Nat → Smp C} {ends : Nat → Bool} {st fn : Nat → σ} (hr : PassRun D f ends st fn)
    {c : Nat} {p : σ × WAttr κ} (h : AtP D ends st fn c p) (he : AtEnd ends p) :
    ∃ q, Obs (wstep D cfg gid) p (.fin q) ∧ AtP D ends st fn c q ∧ q.2.ctl = .fresh ∧ q.2.idx = c ∧ ∃ (kk : κ) (y : WAttr κ), y.cps = p.2.cps ∧ y.idx = c ∧ q.2 = store cfg true kk y := by
  obtain ⟨s, x⟩ := p
  rcases h.pos with ⟨hctl, -⟩ | ⟨hctl, hs, heq⟩
  · rw [he.1] at hctl; cases hctl
  · obtain ⟨s', h1, h2⟩ := fin_of_equiv heq (hr.fin _ he.2)
    have htot : x.idx = c := by have := h.total; simp only at this hs; omega
    have h3 : D.Equiv s' (cur ends st fn x.idx) := by rw [cur, if_pos he.2]; exact h2
    refine ⟨_, wobs_fin h1 hctl, ⟨h.paused.fin h1, ?_, .inl ⟨(store_idx _ _ _).2.2, ?_⟩, ?_⟩, (store_idx _ _ _).2.2, ?_, D.save s', { x with ctl := .fresh }, rfl, htot, rfl⟩
    · rw [(store_idx _ _ _).1, (store_idx _ _ _).2.1]; exact h.total
    · rw [(store_idx _ _ _).1]; exact h3
    · intro cp hcp
      rcases store_cps _ _ _ cp hcp with hcp | hcp
      · exact h.cps cp hcp
      · rw [hcp]; exact saved_at hD hE hr (h.paused.fin h1) (.inr h3)
    · rw [(store_idx _ _ _).1]; exact htot

theorem eventsFrom_succ (f : Nat → Smp C) (ends : Nat → Bool) (gid c m : Nat) : eventsFrom f ends gid c (m + 1) =
    eventsFrom f ends gid c m ++ (.item (c + m, (f (c + m)).addKey (loaderKey gid (c + m))) :: if ends (c + m + 1) then [.fin] else []) := by
  simp [eventsFrom, List.range_succ]

/-- The events of a worker that is at `c`, and whether the end of the pass is reported behind sample `c - 1` first -/
theorem AtP.does {D : Dataset σ (Smp C) κ} (hD : D.ResumesUpToEnd) (hE : ResumesBehindEnd D) {cfg : Cfg} {gid : Nat} {f : Nat → Smp C} {ends : Nat → Bool} {st fn : Nat → σ} (hr : PassRun D f ends st fn)
    {c : Nat} {u : σ × WAttr κ} (hu : AtP D ends st fn c u) (hn : ¬ AtEnd ends u) (m : Nat) :
    ∃ p, Does D cfg gid u (eventsFrom f ends gid c m) p ∧ AtP D ends st fn (c + m) p ∧ ¬ AtEnd ends p := by
  induction m with
  | zero => exact ⟨u, .nil, hu, hn⟩
  | succ m ih =>
    obtain ⟨p, h1, h2, h3⟩ := ih
    obtain ⟨q, h4, h5, h6, h7, -⟩ := h2.item hD hE (cfg := cfg) (gid := gid) hr h3
    rw [eventsFrom_succ]
    by_cases he : ends (c + m + 1) = true
    · obtain ⟨r, h8, h9, h10, -⟩ := h5.finish hD hE (cfg := cfg) (gid := gid) hr ⟨h6, by rw [h7]; exact he⟩
      refine ⟨r, ?_, h9, fun h => ?_⟩
      · rw [if_pos he]
        have := (h1.item h4).fin h8
        simpa using this
      · have h := h.1
        rw [h10] at h
        cases h
    · refine ⟨q, ?_, h5, fun h => he (by rw [← h7]; exact h.2)⟩
      rw [if_neg he]
      exact h1.item h4

/-- Everything a worker does is at a position of the run. -/
theorem Does.at {D : Dataset σ (Smp C) κ} (hD : D.ResumesUpToEnd) (hE : ResumesBehindEnd D) {cfg : Cfg} {gid : Nat} {f : Nat → Smp C} {ends : Nat → Bool} {st fn : Nat → σ} (hr : PassRun D f ends st fn)
    {c : Nat} {u p : σ × WAttr κ} (hu : AtP D ends st fn c u) (hn : ¬ AtEnd ends u) {evs : List (Ev (Nat × Smp C))} (h : Does D cfg gid u evs p) :
    AtP D ends st fn (c + (itemsOf evs).length) p ∧
      ((¬ AtEnd ends p ∧ evs = eventsFrom f ends gid c (itemsOf evs).length) ∨
       (AtEnd ends p ∧ ends (c + (itemsOf evs).length) = true ∧ evs ++ [.fin] = eventsFrom f ends gid c (itemsOf evs).length)) := by
  have hlen1 : ∀ (l : List (Ev (Nat × Smp C))) b, (itemsOf (l ++ [.item b])).length = (itemsOf l).length + 1 := by
    intro l b
    rw [Dataset.itemsOf_append]
    simp [itemsOf]
  have hlen2 : ∀ (l : List (Ev (Nat × Smp C))), (itemsOf (l ++ [.fin])).length = (itemsOf l).length := by
    intro l
    rw [Dataset.itemsOf_append]
    simp [itemsOf]
  induction h with
  | nil => exact ⟨hu, .inl ⟨hn, rfl⟩⟩
  | @item evs p b q _ ho ih =>
    obtain ⟨h1, h2⟩ := ih
    rcases h2 with ⟨h2, h3⟩ | ⟨h2, -, -⟩
    · obtain ⟨q', h4, h5, h6, h7, -⟩ := h1.item hD hE (cfg := cfg) (gid := gid) hr h2
      cases Obs.det ho h4
      rw [hlen1]
      refine ⟨h5, ?_⟩
      have e : eventsFrom f ends gid c ((itemsOf evs).length + 1) = evs ++ (.item (c + (itemsOf evs).length, (f (c + (itemsOf evs).length)).addKey (loaderKey gid (c + (itemsOf evs).length))) ::
          if ends (c + (itemsOf evs).length + 1) then [.fin] else []) := by
        rw [eventsFrom_succ, ← h3]
      rw [e]
      by_cases he : ends (c + (itemsOf evs).length + 1) = true
      · right
        refine ⟨⟨h6, by rw [h7]; exact he⟩, he, ?_⟩
        rw [if_pos he]
        simp
      · left
        refine ⟨fun h => he (by rw [← h7]; exact h.2), ?_⟩
        rw [if_neg he]
    · obtain ⟨q', h4, -⟩ := h1.finish hD hE (cfg := cfg) (gid := gid) hr h2
      cases Obs.det ho h4
  | @fin evs p q _ ho ih =>
    obtain ⟨h1, h2⟩ := ih
    rcases h2 with ⟨h2, h3⟩ | ⟨h2, h3, h4⟩
    · obtain ⟨q', h4, -⟩ := h1.item hD hE (cfg := cfg) (gid := gid) hr h2
      cases Obs.det ho h4
    · obtain ⟨q', h5, h6, h7, -⟩ := h1.finish hD hE (cfg := cfg) (gid := gid) hr h2
      cases Obs.det ho h5
      rw [hlen2]
      exact ⟨h6, .inl ⟨(fun h => by have h := h.1; rw [h7] at h; cases h), h4⟩⟩

theorem IncP.at {D : Dataset σ (Smp C) κ} (hD : D.ResumesUpToEnd) (hE : ResumesBehindEnd D) {gid : Nat} {f : Nat → Smp C} {ends : Nat → Bool} {st fn : Nat → σ} (hr : PassRun D f ends st fn)
    {c : Nat} {u : σ × WAttr κ} (h : IncP D gid u c) : AtP D ends st fn c u ∧ u.2.ctl = .fresh ∧ ∃ d, u.2.cps = [⟨d, u.2.idx⟩] := by
  induction h with
  | fresh =>
    have h0 : D.Equiv D.init (cur ends st fn 0) := by
      rw [cur, hr.zero, ← hr.init]
      exact Dataset.Equiv.refl _
    refine ⟨⟨.init, rfl, .inl ⟨rfl, h0⟩, ?_⟩, rfl, none, rfl⟩
    intro cp hcp
    simp only [wfresh, List.mem_singleton] at hcp
    subst hcp
    exact ⟨.init, h0⟩
  | @restored u c cfg evs p c' k _ hd h1 h2 hg ih =>
    obtain ⟨cp, h3, h4, rfl⟩ := getCheckpoint_mem hg
    have hcp := ((hd.at hD hE hr ih.1 (fun h => by have h := h.1; rw [ih.2.1] at h; cases h)).1.cps cp h3)
    refine ⟨⟨hcp.1, ?_, .inl ⟨rfl, hcp.2⟩, ?_⟩, rfl, _, rfl⟩
    · simp only [wresume]; omega
    · intro cp' hcp'
      simp only [wresume, List.mem_singleton] at hcp'
      subst hcp'
      exact saved_at hD hE hr hcp.1 (.inr hcp.2)

/-! ### The property -/

/-- **C122, one worker: what it answers.** After any number of saves and restores, in any pass, a worker answers with exactly the samples behind those that have been delivered to the user, numbered on, over any number of further passes,
and every pass ends where it ends in the uninterrupted run. -/
theorem C122_worker_exact {D : Dataset σ (Smp C) κ} (hD : D.ResumesUpToEnd) (hE : ResumesBehindEnd D) {gid : Nat} {f : Nat → Smp C} {ends : Nat → Bool} {st fn : Nat → σ} (hr : PassRun D f ends st fn)
    {u : σ × WAttr κ} {c : Nat} (h : IncP D gid u c) {cfg : Cfg} {evs : List (Ev (Nat × Smp C))} {p : σ × WAttr κ} (hd : Does D cfg gid u evs p) :
    evs = eventsFrom f ends gid c (itemsOf evs).length ∨ evs ++ [.fin] = eventsFrom f ends gid c (itemsOf evs).length := by
  obtain ⟨h1, h2, -⟩ := h.at hD hE hr
  rcases (hd.at hD hE hr h1 (fun h => by have h := h.1; rw [h2] at h; cases h)).2 with h | h
  · exact .inl h.2
  · exact .inr h.2.2

/-- **C122, one worker: it goes on.** It can always answer any number of further samples. -/
theorem C122_worker_goes_on {D : Dataset σ (Smp C) κ} (hD : D.ResumesUpToEnd) (hE : ResumesBehindEnd D) {gid : Nat} {f : Nat → Smp C} {ends : Nat → Bool} {st fn : Nat → σ} (hr : PassRun D f ends st fn)
    {u : σ × WAttr κ} {c : Nat} (h : IncP D gid u c) (cfg : Cfg) (m : Nat) : ∃ p, Does D cfg gid u (eventsFrom f ends gid c m) p := by
  obtain ⟨h1, h2, -⟩ := h.at hD hE hr
  obtain ⟨p, h3, -⟩ := h1.does hD hE (cfg := cfg) (gid := gid) hr (fun h => by have h := h.1; rw [h2] at h; cases h) m
  exact ⟨p, h3⟩

/-! ### A checkpoint can be found -/

/-- The checkpoints of a worker whose process was started, or whose last pass ended, at sample `r`: the newest one is not behind `r`; or the one before it is not, or is far enough behind the newest one, or is the first of all. -/
structure Kept (minN r : Nat) (x : WAttr κ) : Prop where
  le : ∀ cp ∈ x.cps, cp.idx ≤ x.idx
  form : (∃ pre b, x.cps = pre ++ [b] ∧ b.idx ≤ r) ∨ ∃ pre a b, x.cps = pre ++ [a, b] ∧ (a.idx + minN ≤ b.idx ∨ a.idx = 0 ∨ a.idx ≤ r)

theorem Kept.find {minN r : Nat} {x : WAttr κ} (h : Kept minN r x) {last : Nat} (hr : r ≤ last + 1) (hp : x.idx ≤ last + 1 + minN) : (getCheckpoint x last).isSome := by
  have hex : ∃ cp ∈ x.cps, cp.idx ≤ last + 1 := by
    rcases h.form with ⟨pre, b, hd, hb⟩ | ⟨pre, a, b, hd, hg⟩
    · exact ⟨b, by rw [hd]; simp, by omega⟩
    · refine ⟨a, by rw [hd]; simp, ?_⟩
      have := h.le b (by rw [hd]; simp)
      rcases hg with hg | hg | hg <;> omega
  obtain ⟨cp, hcp, hle⟩ := hex
  unfold getCheckpoint
  rw [Option.isSome_map, List.find?_isSome]
  exact ⟨cp, List.mem_reverse.2 hcp, by simpa using hle⟩

theorem tail_keeps {β : Type} (pre : List β) (a b : β) : ∃ pre', (pre ++ [a, b]).tail = pre' ++ [b] ∧ (pre ≠ [] → ∃ pre'', (pre ++ [a, b]).tail = pre'' ++ [a, b]) := by
  cases pre with
  | nil => exact ⟨[], rfl, fun h => absurd rfl h⟩
  | cons p pre => exact ⟨pre ++ [a], by simp, fun _ => ⟨pre, rfl⟩⟩

/-- Storing without force -/
theorem Kept.store {cfg : Cfg} {minN r : Nat} {x y : WAttr κ} (hk : 2 ≤ cfg.keep) (hm : minN ≤ cfg.minN) (h : Kept minN r x) (hc : y.cps = x.cps) (hi : x.idx < y.idx) (k : κ) :
    Kept minN r (store cfg false k y) := by
  refine ⟨?_, ?_⟩
  · intro cp hcp
    rw [(store_idx _ _ _).1]
    rcases store_cps _ _ _ cp hcp with hcp | hcp
    · rw [hc] at hcp
      have := h.le cp hcp
      omega
    · rw [hcp]; exact Nat.le_refl _
  · unfold Loader.store
    split
    · next hcond =>
      obtain ⟨pre, b, hd, hg⟩ : ∃ pre b, x.cps = pre ++ [b] ∧ (b.idx + minN ≤ y.idx ∨ b.idx = 0) := by
        have hne : ∃ pre b, x.cps = pre ++ [b] := by
          rcases h.form with ⟨pre, b, hd, -⟩ | ⟨pre, a, b, hd, -⟩
          · exact ⟨pre, b, hd⟩
          · exact ⟨pre ++ [a], b, by rw [hd]; simp⟩
        obtain ⟨pre, b, hd⟩ := hne
        refine ⟨pre, b, hd, ?_⟩
        have hlast : lastIdx y.cps = b.idx := by rw [lastIdx, hc, hd]; simp
        have hle := h.le b (by rw [hd]; simp)
        rw [hlast] at hcond
        simp at hcond
        rcases hcond with hcond | hcond
        · left; omega
        · right; omega
      right
      dsimp only
      rw [hc, hd]
      have e : pre ++ [b] ++ [(⟨some k, y.idx⟩ : Cp κ)] = pre ++ [b, ⟨some k, y.idx⟩] := by simp
      rw [e]
      have hgap : b.idx + minN ≤ (⟨some k, y.idx⟩ : Cp κ).idx ∨ b.idx = 0 ∨ b.idx ≤ r := hg.elim .inl fun h => .inr (.inl h)
      split
      · next hlen =>
        obtain ⟨-, -, h2⟩ := tail_keeps pre b (⟨some k, y.idx⟩ : Cp κ)
        obtain ⟨pre'', h2⟩ := h2 (by rintro rfl; simp at hlen; omega)
        exact ⟨pre'', b, _, h2, hgap⟩
      · exact ⟨pre, b, _, rfl, hgap⟩
    · rw [hc]; exact h.form

/-- Storing at the end of a pass -/
theorem Kept.force {cfg : Cfg} {minN r : Nat} {x y : WAttr κ} (hk : 2 ≤ cfg.keep) (h : Kept minN r x) (hc : y.cps = x.cps) (hi : y.idx = x.idx) (k : κ) : Kept minN x.idx (Loader.store cfg true k y) := by
  refine ⟨?_, .inl ?_⟩
  · intro cp hcp
    rw [(store_idx _ _ _).1, hi]
    rcases store_cps _ _ _ cp hcp with hcp | hcp
    · rw [hc] at hcp
      exact h.le cp hcp
    · rw [hcp]; exact Nat.le_of_eq hi
  · have hne : ∃ pre b, x.cps = pre ++ [b] := by
      rcases h.form with ⟨pre, b, hd, -⟩ | ⟨pre, a, b, hd, -⟩
      · exact ⟨pre, b, hd⟩
      · exact ⟨pre ++ [a], b, by rw [hd]; simp⟩
    obtain ⟨pre, b, hd⟩ := hne
    unfold Loader.store
    simp only [Bool.true_or, if_true]
    rw [hc, hd]
    have e : pre ++ [b] ++ [(⟨some k, y.idx⟩ : Cp κ)] = pre ++ [b, ⟨some k, y.idx⟩] := by simp
    rw [e]
    split
    · obtain ⟨pre', h1, -⟩ := tail_keeps pre b (⟨some k, y.idx⟩ : Cp κ)
      exact ⟨pre', _, h1, Nat.le_of_eq hi⟩
    · exact ⟨pre ++ [b], (⟨some k, y.idx⟩ : Cp κ), by simp, Nat.le_of_eq hi⟩

/-- At any time the checkpoints are good for everything from the last end of a pass on. -/
theorem Does.kept {D : Dataset σ (Smp C) κ} (hD : D.ResumesUpToEnd) (hE : ResumesBehindEnd D) {M : Nat} {cfg : Cfg} (hk : 2 ≤ cfg.keep) (hm : M ≤ cfg.minN) {gid : Nat} {f : Nat → Smp C} {ends : Nat → Bool} {st fn : Nat → σ}
    (hr : PassRun D f ends st fn) {c : Nat} {u p : σ × WAttr κ} (hu : AtP D ends st fn c u) (hn : u.2.ctl = .fresh) (hc : ∃ d, u.2.cps = [⟨d, u.2.idx⟩]) {evs : List (Ev (Nat × Smp C))} (h : Does D cfg gid u evs p) :
    p.2.idx ≤ c + (itemsOf evs).length ∧ ∃ r, Kept M r p.2 ∧ (r ≤ c ∨ ∃ es, (es ++ [.fin]) <+: evs ∧ r = c + (itemsOf es).length) := by
  have hne : ¬ AtEnd ends u := fun h => by have h := h.1; rw [hn] at h; cases h
  induction h with
  | nil =>
    obtain ⟨d, hc⟩ := hc
    have := hu.total
    refine ⟨by simp only [itemsOf, List.length_nil]; omega, u.2.idx, ⟨?_, .inl ⟨[], _, hc, Nat.le_refl _⟩⟩, .inl (by omega)⟩
    intro cp hcp
    rw [hc, List.mem_singleton] at hcp
    rw [hcp]
    exact Nat.le_refl _
  | @item evs p b q hd ho ih =>
    obtain ⟨hle, r, h1, h2⟩ := ih
    obtain ⟨h3, h4⟩ := hd.at hD hE hr hu hne
    rcases h4 with ⟨h4, -⟩ | ⟨h4, -⟩
    · obtain ⟨q', h5, h6, h7, h8, kk, y, h9, h10, h11⟩ := h3.item hD hE (cfg := cfg) (gid := gid) hr h4
      cases Obs.det ho h5
      have hl : (itemsOf (evs ++ [.item (c + (itemsOf evs).length, (f (c + (itemsOf evs).length)).addKey (loaderKey gid (c + (itemsOf evs).length)))])).length = (itemsOf evs).length + 1 := by
        rw [Dataset.itemsOf_append]; simp [itemsOf]
      refine ⟨by rw [hl, h8]; omega, r, ?_, ?_⟩
      · rw [h11]
        exact h1.store hk hm h9 (by rw [h10]; omega) kk
      · rcases h2 with h2 | ⟨es, h2, h12⟩
        · exact .inl h2
        · exact .inr ⟨es, h2.trans (List.prefix_append _ _), h12⟩
    · obtain ⟨q', h5, -⟩ := h3.finish hD hE (cfg := cfg) (gid := gid) hr h4
      cases Obs.det ho h5
  | @fin evs p q hd ho ih =>
    obtain ⟨hle, r, h1, h2⟩ := ih
    obtain ⟨h3, h4⟩ := hd.at hD hE hr hu hne
    rcases h4 with ⟨h4, -⟩ | ⟨h4, -⟩
    · obtain ⟨q', h5, -⟩ := h3.item hD hE (cfg := cfg) (gid := gid) hr h4
      cases Obs.det ho h5
    · obtain ⟨q', h5, h6, h7, h8, kk, y, h9, h10, h11⟩ := h3.finish hD hE (cfg := cfg) (gid := gid) hr h4
      cases Obs.det ho h5
      have hl : (itemsOf (evs ++ [(.fin : Ev (Nat × Smp C))])).length = (itemsOf evs).length := by
        rw [Dataset.itemsOf_append]; simp [itemsOf]
      have hpi : p.2.idx = c + (itemsOf evs).length := by
        rcases h3.pos with ⟨h12, -⟩ | ⟨-, h12, -⟩
        · have h4 := h4.1
          rw [h12] at h4; cases h4
        · have := h3.total
          omega
      refine ⟨by rw [hl, h8]; exact Nat.le_refl _, p.2.idx, ?_, .inr ⟨evs, List.prefix_rfl, hpi⟩⟩
      rw [h11]
      exact h1.force hk h9 (by rw [h10, hpi]) kk

/-- **C122, one worker: the state can be saved** in any pass, if the user has got all samples of the passes whose end the worker has reached, and the worker is at most `M` samples ahead. Missing: saving when a worker has reached the
end of the pass, but the user has not got all of its samples (false: `C37_violated_end`). -/
theorem C122_worker_saved_partial {D : Dataset σ (Smp C) κ} (hD : D.ResumesUpToEnd) (hE : ResumesBehindEnd D) {gid M : Nat} {f : Nat → Smp C} {ends : Nat → Bool} {st fn : Nat → σ} (hr : PassRun D f ends st fn)
    {u : σ × WAttr κ} {c : Nat} (h : IncP D gid u c) {cfg : Cfg} (hk : 2 ≤ cfg.keep) (hm : M ≤ cfg.minN) {evs : List (Ev (Nat × Smp C))} {p : σ × WAttr κ} (hd : Does D cfg gid u evs p)
    {c' : Nat} (hc : c < c') (hM : c + (itemsOf evs).length ≤ c' + M) (hends : ∀ es, (es ++ [.fin]) <+: evs → c + (itemsOf es).length ≤ c') :
    (getCheckpoint p.2 (c' - 1)).isSome := by
  obtain ⟨h1, h2, h3⟩ := h.at hD hE hr
  obtain ⟨h4, r, h5, h6⟩ := hd.kept hD hE hk hm hr h1 h2 h3
  refine h5.find ?_ (by omega)
  rcases h6 with h6 | ⟨es, h6, h7⟩
  · omega
  · have := hends es h6
    omega

end Verif.Loader
