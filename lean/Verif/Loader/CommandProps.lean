import Verif.Loader.CommandModel
import Verif.Loader.WorkerModel

/-!
# C87: saving the state of a loader with worker processes always returns, and sees every worker between two samples
-/

namespace Verif.Loader.Cmd

variable {S : Type} {n : Nat} {P : Nat → Code S}

/-! ## Specification -/

/-- The attributes of a worker after it has fetched `m` samples (undisturbed by any command) -/
def Code.after (P : Code S) : Nat → S
  | 0 => P.restore P.init
  | m + 1 => (P.fetch (P.after m)).1

/-- The command saw the worker after it had produced exactly `m` samples: between two samples, or at the end of the dataset, before or after the final
checkpoint was stored. -/
def Between (P : Code S) (m : Nat) (r : Answer S) : Prop :=
  (r.gen = .suspended ∧ r.attr = P.after m) ∨ (r.gen = .finishing ∧ r.attr = (P.fetch (P.after m)).1) ∨
    (r.gen = .ended ∧ r.attr = P.final (P.fetch (P.after m)).1)

/-- The command saw a worker that has not begun: neither has it restored its state. -/
def TooEarly (P : Code S) (r : Answer S) : Prop := r.gen = .starting ∧ r.attr = P.init

/-- A call of the main process returns `rs` by the step from `s` to `t`. -/
def Returns (n : Nat) (P : Nat → Code S) (s t : Sys S) (rs : List (Answer S)) : Prop :=
  Step n P s t ∧ s.main = .getting rs ∧ t.main = .idle (some rs)

/-- In the middle of a call -/
def InCall (s : Sys S) : Prop := ∀ last, s.main ≠ .idle last

/-- **C87, the full statement**: what a call returns are the answers of the workers, in order, to this call, and each saw its worker between two
samples: after all samples the main process has taken of it and at most two more. -/
def C87_statement : Prop :=
  ∀ (S : Type) (n : Nat) (P : Nat → Code S) (s t : Sys S) (rs : List (Answer S)), Reach n P s → Returns n P s t rs →
    rs.length = n ∧ ∀ w (hw : w < rs.length), rs[w].call = s.calls ∧
      ∃ m, (s.procs w).taken ≤ m ∧ m ≤ (s.procs w).taken + 2 ∧ Between (P w) m rs[w]

/-! ## Invariant -/

/-- The attributes, given where the generator is -/
def AttrOk (P : Code S) (p : Proc S) : Prop :=
  match p.gen with
  | .fresh => p.attr = P.init ∧ p.made = 0
  | .starting => p.attr = P.init ∧ p.made = 0
  | .locked => p.attr = P.after p.made
  | .suspended => p.attr = P.after p.made
  | .finishing => p.attr = (P.fetch (P.after p.made)).1
  | .ended => p.attr = P.final (P.fetch (P.after p.made)).1

def TasksOk (p : Proc S) : Prop :=
  match p.gen with
  | .fresh => p.made + p.tasks = p.taken + 2 ∧ 0 < p.tasks ∧ p.thr = .none
  | .starting => p.made + p.tasks = p.taken + 2 ∧ 0 < p.tasks
  | .locked => p.made + p.tasks = p.taken + 2 ∧ 0 < p.tasks
  | .suspended => p.made + p.tasks = p.taken + 2
  | .finishing => p.made + p.tasks ≤ p.taken + 2
  | .ended => p.made + p.tasks ≤ p.taken + 2

def GoodAnswer (P : Code S) (p : Proc S) (r : Answer S) : Prop :=
  (TooEarly P r ∧ p.taken = 0) ∨ ∃ m, p.taken ≤ m ∧ m ≤ p.taken + 2 ∧ Between P m r

structure PInv (P : Code S) (p : Proc S) : Prop where
  mutex : p.gen = .locked → ∀ c, p.thr ≠ .holding c
  attr : AttrOk P p
  tasks : TasksOk p
  taken : p.taken ≤ p.made
  fresh : p.thr = .none → p.gen = .fresh
  results : ∀ r ∈ p.results, GoodAnswer P p r

/-- No command is under way in this worker. -/
def Quiet (p : Proc S) : Prop := p.cmds = [] ∧ p.results = [] ∧ (p.thr = .none ∨ p.thr = .waiting)

/-- Exactly one command is under way, that of call `c`. -/
def One (c : Nat) (p : Proc S) : Prop :=
  (p.cmds = [c] ∧ p.results = [] ∧ (p.thr = .none ∨ p.thr = .waiting)) ∨
    (p.cmds = [] ∧ p.results = [] ∧ (p.thr = .got c ∨ p.thr = .holding c)) ∨
    (p.cmds = [] ∧ p.thr = .waiting ∧ ∃ r, p.results = [r] ∧ r.call = c)

def CmdOk (s : Sys S) (w : Nat) : Prop :=
  match s.main with
  | .idle _ => Quiet (s.procs w)
  | .sending k => if w < k then One s.calls (s.procs w) else Quiet (s.procs w)
  | .getting rs => if w < rs.length then Quiet (s.procs w) else One s.calls (s.procs w)

structure Inv (n : Nat) (P : Nat → Code S) (s : Sys S) : Prop where
  proc : ∀ w < n, PInv (P w) (s.procs w)
  cmd : ∀ w < n, CmdOk s w
  got : ∀ rs, s.main = .getting rs → rs.length ≤ n ∧ ∀ w (hw : w < rs.length), rs[w].call = s.calls ∧ GoodAnswer (P w) (s.procs w) rs[w]
  sending : ∀ k, s.main = .sending k → k ≤ n

theorem PStep.taken {P : Code S} {p q : Proc S} (h : PStep P p q) : q.taken = p.taken := by cases h <;> rfl

theorem pinv_step {P : Code S} {p q : Proc S} (hp : PInv P p) (h : PStep P p q) : PInv P q := by
  obtain ⟨h1, h2, h3, h4, h5, h6⟩ := hp
  have keep : ∀ {q : Proc S}, q.taken = p.taken → q.results = p.results → ∀ r ∈ q.results, GoodAnswer P q r := by
    intro q e1 e2 r hr
    rw [e2] at hr
    have := h6 r hr
    unfold GoodAnswer at this ⊢
    rwa [e1]
  cases h with
  | start h ht =>
    refine ⟨fun hg => (by cases hg), ?_, ?_, h4, ?_, keep rfl rfl⟩
    · simp only [AttrOk, h] at h2 ⊢; exact h2
    · simp only [TasksOk, h] at h3 ⊢; exact ⟨h3.1, h3.2.1⟩
    · intro hn
      cases ht' : p.thr <;> simp [ht'] at hn
  | lock h hl =>
    refine ⟨fun _ => hl, ?_, ?_, h4, ?_, keep rfl rfl⟩
    · simp only [AttrOk, h] at h2 ⊢; rw [h2.1, h2.2]; rfl
    · simp only [TasksOk, h] at h3 ⊢; exact h3
    · intro hn; have := h5 hn; rw [h] at this; cases this
  | yields h hf =>
    refine ⟨fun hg => (by cases hg), ?_, ?_, Nat.le_succ_of_le h4, ?_, keep rfl rfl⟩
    · simp only [AttrOk, h] at h2 ⊢
      show _ = (P.fetch (P.after p.made)).1
      rw [← h2, hf]
    · simp only [TasksOk, h] at h3 ⊢; omega
    · intro hn; have := h5 hn; rw [h] at this; cases this
  | resume h ht hl =>
    refine ⟨fun _ => hl, ?_, ?_, h4, ?_, keep rfl rfl⟩
    · simp only [AttrOk, h] at h2 ⊢; exact h2
    · simp only [TasksOk, h] at h3 ⊢; exact ⟨h3, ht⟩
    · intro hn; have := h5 hn; rw [h] at this; cases this
  | ends h hf =>
    refine ⟨fun hg => (by cases hg), ?_, ?_, h4, ?_, keep rfl rfl⟩
    · simp only [AttrOk, h] at h2 ⊢
      rw [← h2, hf]
    · simp only [TasksOk, h] at h3 ⊢; omega
    · intro hn; have := h5 hn; rw [h] at this; cases this
  | close h =>
    refine ⟨fun hg => (by cases hg), ?_, ?_, h4, ?_, keep rfl rfl⟩
    · simp only [AttrOk, h] at h2 ⊢; rw [h2]
    · simp only [TasksOk, h] at h3 ⊢; exact h3
    · intro hn; have := h5 hn; rw [h] at this; cases this
  | drop h ht =>
    refine ⟨h1, ?_, ?_, h4, h5, keep rfl rfl⟩
    · simp only [AttrOk, h] at h2 ⊢; exact h2
    · simp only [TasksOk, h] at h3 ⊢; omega
  | take h hc =>
    refine ⟨fun _ c hn => (by cases hn), ?_, ?_, h4, ?_, keep rfl rfl⟩
    · exact h2
    · unfold TasksOk at h3 ⊢
      cases hg : p.gen <;> simp only [hg] at h3 ⊢
      · rw [h] at h3; cases h3.2.2
      all_goals exact h3
    · intro hn; cases hn
  | acquire h hl =>
    refine ⟨fun hg => absurd hg hl, ?_, ?_, h4, ?_, keep rfl rfl⟩
    · exact h2
    · unfold TasksOk at h3 ⊢
      cases hg : p.gen <;> simp only [hg] at h3 ⊢
      · rw [h] at h3; cases h3.2.2
      all_goals exact h3
    · intro hn; cases hn
  | @answer c h =>
    refine ⟨fun _ c hn => (by cases hn), ?_, ?_, h4, ?_, ?_⟩
    · exact h2
    · unfold TasksOk at h3 ⊢
      cases hg : p.gen <;> simp only [hg] at h3 ⊢
      · rw [h] at h3; cases h3.2.2
      all_goals exact h3
    · intro hn; cases hn
    · intro r hr
      rcases List.mem_append.1 hr with hr | hr
      · exact h6 r hr
      · rw [List.mem_singleton] at hr
        subst hr
        unfold AttrOk at h2
        unfold TasksOk at h3
        cases hg : p.gen <;> simp only [hg] at h2 h3
        · rw [h] at h3; cases h3.2.2
        · refine .inl ⟨⟨rfl, h2.1⟩, ?_⟩
          show p.taken = 0
          omega
        · exact absurd h (h1 hg c)
        · exact .inr ⟨p.made, h4, by show p.made ≤ p.taken + 2; omega, .inl ⟨rfl, h2⟩⟩
        · exact .inr ⟨p.made, h4, by show p.made ≤ p.taken + 2; omega, .inr (.inl ⟨rfl, h2⟩)⟩
        · exact .inr ⟨p.made, h4, by show p.made ≤ p.taken + 2; omega, .inr (.inr ⟨rfl, h2⟩)⟩

/-- A step of the worker does not change what is under way. -/
theorem quiet_step {P : Code S} {p q : Proc S} (hp : Quiet p) (h : PStep P p q) : Quiet q := by
  obtain ⟨h1, h2, h3⟩ := hp
  cases h with
  | start h ht =>
    refine ⟨h1, h2, ?_⟩
    rcases h3 with h3 | h3 <;> simp [h3]
  | take h hc => rw [h1] at hc; cases hc
  | acquire h hl => rcases h3 with h3 | h3 <;> rw [h3] at h <;> cases h
  | answer h => rcases h3 with h3 | h3 <;> rw [h3] at h <;> cases h
  | _ => exact ⟨h1, h2, h3⟩

theorem one_step {P : Code S} {c : Nat} {p q : Proc S} (hp : One c p) (h : PStep P p q) : One c q := by
  rcases hp with ⟨h1, h2, h3⟩ | ⟨h1, h2, h3⟩ | ⟨h1, h2, r, h3, h4⟩
  · cases h with
    | start h ht => exact .inl ⟨h1, h2, by rcases h3 with h3 | h3 <;> simp [h3]⟩
    | take h hc =>
      rw [h1] at hc
      cases hc
      exact .inr (.inl ⟨rfl, h2, .inl rfl⟩)
    | acquire h hl => rcases h3 with h3 | h3 <;> rw [h3] at h <;> cases h
    | answer h => rcases h3 with h3 | h3 <;> rw [h3] at h <;> cases h
    | _ => exact .inl ⟨h1, h2, h3⟩
  · cases h with
    | start h ht => exact .inr (.inl ⟨h1, h2, by rcases h3 with h3 | h3 <;> simp [h3]⟩)
    | take h hc => rw [h1] at hc; cases hc
    | acquire h hl =>
      rcases h3 with h3 | h3 <;> rw [h3] at h <;> cases h
      exact .inr (.inl ⟨h1, h2, .inr rfl⟩)
    | answer h =>
      rcases h3 with h3 | h3 <;> rw [h3] at h <;> cases h
      refine .inr (.inr ⟨h1, rfl, ⟨c, p.gen, p.attr⟩, ?_, rfl⟩)
      simp [h2]
    | _ => exact .inr (.inl ⟨h1, h2, h3⟩)
  · cases h with
    | start h ht => exact .inr (.inr ⟨h1, by simp [h2], r, h3, h4⟩)
    | take h hc => rw [h1] at hc; cases hc
    | acquire h hl => rw [h2] at h; cases h
    | answer h => rw [h2] at h; cases h
    | _ => exact .inr (.inr ⟨h1, h2, r, h3, h4⟩)

theorem set_same (s : Sys S) (w : Nat) (p : Proc S) : (s.set w p).procs w = p := by simp [Sys.set]

theorem set_other (s : Sys S) {w v : Nat} (p : Proc S) (h : v ≠ w) : (s.set w p).procs v = s.procs v := by simp [Sys.set, h]

theorem inv_start : Inv n P (start P) := by
  refine ⟨fun w _ => ⟨fun h => (by cases h), ?_, ?_, Nat.le_refl _, fun _ => rfl, fun r hr => (by cases hr)⟩, fun w _ => ?_, fun rs h => ?_, fun k h => ?_⟩
  · exact ⟨rfl, rfl⟩
  · exact ⟨rfl, by show 0 < 2; omega, rfl⟩
  · exact ⟨rfl, rfl, .inl rfl⟩
  · cases h
  · cases h

theorem good_congr {P : Code S} {p q : Proc S} {r : Answer S} (h : q.taken = p.taken) (hg : GoodAnswer P p r) : GoodAnswer P q r := by
  unfold GoodAnswer at hg ⊢
  rwa [h]

theorem inv_step {s t : Sys S} (hs : Inv n P s) (h : Step n P s t) : Inv n P t := by
  obtain ⟨i1, i2, i3, i4⟩ := hs
  cases h with
  | @work w p hw h =>
    refine ⟨fun v hv => ?_, fun v hv => ?_, fun rs hm => ?_, i4⟩
    · by_cases e : v = w
      · subst e; rw [set_same]; exact pinv_step (i1 v hv) h
      · rw [set_other _ _ e]; exact i1 v hv
    · have := i2 v hv
      by_cases e : v = w
      · subst e
        unfold CmdOk at this ⊢
        rw [set_same]
        show match s.main with
          | .idle _ => _
          | .sending k => _
          | .getting rs => _
        cases hm : s.main with
        | idle last => rw [hm] at this; exact quiet_step this h
        | sending k =>
          rw [hm] at this
          simp only at this ⊢
          split at this
          · rename_i hk; rw [if_pos hk]; exact one_step this h
          · rename_i hk; rw [if_neg hk]; exact quiet_step this h
        | getting rs =>
          rw [hm] at this
          simp only at this ⊢
          split at this
          · rename_i hk; rw [if_pos hk]; exact quiet_step this h
          · rename_i hk; rw [if_neg hk]; exact one_step this h
      · unfold CmdOk at this ⊢
        rw [set_other _ _ e]
        exact this
    · obtain ⟨h1, h2⟩ := i3 rs hm
      refine ⟨h1, fun v hv => ⟨(h2 v hv).1, ?_⟩⟩
      have := (h2 v hv).2
      by_cases e : v = w
      · subst e
        rw [set_same]
        exact good_congr h.taken this
      · rw [set_other _ _ e]; exact this
  | @recv last w hm hw h =>
    refine ⟨fun v hv => ?_, fun v hv => ?_, fun rs hm' => ?_, fun k hk => ?_⟩
    · by_cases e : v = w
      · subst e
        rw [set_same]
        obtain ⟨a1, a2, a3, a4, a5, a6⟩ := i1 v hv
        have hq : Quiet (s.procs v) := by have := i2 v hv; unfold CmdOk at this; rw [hm] at this; exact this
        refine ⟨a1, ?_, ?_, ?_, a5, ?_⟩
        · unfold AttrOk at a2 ⊢; exact a2
        · unfold AttrOk at a2
          unfold TasksOk at a3 ⊢
          cases hg : (s.procs v).gen <;> simp only [hg] at a2 a3 ⊢
          · omega
          · omega
          · omega
          · omega
          · omega
          · omega
        · show (s.procs v).taken + 1 ≤ (s.procs v).made; omega
        · intro r hr
          rw [show ({ s.procs v with taken := _, tasks := _ } : Proc S).results = [] from hq.2.1] at hr
          cases hr
      · rw [set_other _ _ e]; exact i1 v hv
    · have := i2 v hv
      unfold CmdOk at this ⊢
      show match s.main with
          | .idle _ => _
          | .sending k => _
          | .getting rs => _
      rw [hm] at this ⊢
      simp only at this ⊢
      by_cases e : v = w
      · subst e; rw [set_same]; exact this
      · rw [set_other _ _ e]; exact this
    · rw [show (s.set w _).main = s.main from rfl, hm] at hm'; cases hm'
    · rw [show (s.set w _).main = s.main from rfl, hm] at hk; cases hk
  | @call last hm =>
    refine ⟨i1, fun v hv => ?_, fun rs h => (by cases h), fun k hk => ?_⟩
    · have := i2 v hv
      unfold CmdOk at this ⊢
      rw [hm] at this
      simpa using this
    · cases hk; exact Nat.zero_le _
  | @send k hm hk =>
    refine ⟨fun v hv => ?_, fun v hv => ?_, fun rs h => (by cases h), fun j hj => ?_⟩
    · by_cases e : v = k
      · subst e
        show PInv _ ((s.set v _).procs v)
        rw [set_same]
        obtain ⟨a1, a2, a3, a4, a5, a6⟩ := i1 v hv
        exact ⟨a1, a2, a3, a4, a5, a6⟩
      · show PInv _ ((s.set k _).procs v)
        rw [set_other _ _ e]; exact i1 v hv
    · have := i2 v hv
      unfold CmdOk at this ⊢
      rw [hm] at this
      simp only at this ⊢
      by_cases e : v = k
      · subst e
        show if v < v + 1 then One s.calls ((s.set v _).procs v) else Quiet ((s.set v _).procs v)
        rw [set_same]
        rw [if_neg (Nat.lt_irrefl _)] at this
        rw [if_pos (Nat.lt_succ_self _)]
        exact .inl ⟨by simp [this.1], this.2.1, this.2.2⟩
      · show if v < k + 1 then One s.calls ((s.set k _).procs v) else Quiet ((s.set k _).procs v)
        rw [set_other _ _ e]
        by_cases hv' : v < k
        · rw [if_pos hv'] at this; rw [if_pos (by omega)]; exact this
        · rw [if_neg hv'] at this; rw [if_neg (by omega)]; exact this
    · cases hj; exact hk
  | sent hm =>
    refine ⟨i1, fun v hv => ?_, fun rs h => ?_, fun k h => (by cases h)⟩
    · have := i2 v hv
      unfold CmdOk at this ⊢
      rw [hm] at this
      simp only [hv, if_true] at this
      simpa using this
    · cases h
      exact ⟨Nat.zero_le _, fun w hw => (by cases hw)⟩
  | @get rs r l hm hk hr =>
    have hone : One s.calls (s.procs rs.length) := by
      have := i2 rs.length hk
      unfold CmdOk at this
      rw [hm] at this
      simpa using this
    have hone' : s.procs rs.length = s.procs rs.length ∧ (s.procs rs.length).cmds = [] ∧ (s.procs rs.length).thr = .waiting ∧ l = [] ∧ r.call = s.calls := by
      rcases hone with ⟨_, h2, _⟩ | ⟨_, h2, _⟩ | ⟨h1, h2, r', h3, h4⟩
      · rw [h2] at hr; cases hr
      · rw [h2] at hr; cases hr
      · rw [h3] at hr; cases hr
        exact ⟨rfl, h1, h2, rfl, h4⟩
    obtain ⟨_, b1, b2, rfl, b4⟩ := hone'
    have htak : ∀ v, ((s.set rs.length { s.procs rs.length with results := [] }).procs v).taken = (s.procs v).taken := by
      intro v
      by_cases e : v = rs.length
      · subst e; rw [set_same]
      · rw [set_other _ _ e]
    refine ⟨fun v hv => ?_, fun v hv => ?_, fun rs' h => ?_, fun k h => (by cases h)⟩
    · by_cases e : v = rs.length
      · subst e
        show PInv _ ((s.set rs.length _).procs rs.length)
        rw [set_same]
        obtain ⟨a1, a2, a3, a4, a5, a6⟩ := i1 rs.length hv
        exact ⟨a1, a2, a3, a4, a5, fun r hr => (by cases hr)⟩
      · show PInv _ ((s.set rs.length _).procs v)
        rw [set_other _ _ e]; exact i1 v hv
    · have := i2 v hv
      unfold CmdOk at this ⊢
      rw [hm] at this
      simp only at this ⊢
      rw [List.length_append, List.length_singleton]
      by_cases e : v = rs.length
      · subst e
        rw [if_pos (Nat.lt_succ_self _)]
        show Quiet ((s.set rs.length _).procs rs.length)
        rw [set_same]
        exact ⟨b1, rfl, .inr b2⟩
      · show if v < rs.length + 1 then Quiet ((s.set rs.length _).procs v) else One s.calls ((s.set rs.length _).procs v)
        rw [set_other _ _ e]
        by_cases hv' : v < rs.length
        · rw [if_pos hv'] at this; rw [if_pos (by omega)]; exact this
        · rw [if_neg hv'] at this; rw [if_neg (by omega)]; exact this
    · cases h
      obtain ⟨h1, h2⟩ := i3 rs hm
      refine ⟨by rw [List.length_append, List.length_singleton]; omega, fun v hv => ?_⟩
      by_cases hv' : v < rs.length
      · rw [List.getElem_append_left hv']
        exact ⟨(h2 v hv').1, good_congr (htak v) (h2 v hv').2⟩
      · rw [List.length_append, List.length_singleton] at hv
        have e : v = rs.length := by omega
        subst e
        rw [List.getElem_append_right (Nat.le_refl _)]
        simp only [Nat.sub_self, List.getElem_cons_zero]
        refine ⟨b4, good_congr (htak _) ((i1 rs.length hk).results r ?_)⟩
        rw [hr]; exact List.mem_cons_self ..
  | @ret rs hm hk =>
    refine ⟨i1, fun v hv => ?_, fun rs h => (by cases h), fun k h => (by cases h)⟩
    have := i2 v hv
    unfold CmdOk at this ⊢
    rw [hm] at this
    simp only [hk, hv, if_true] at this
    exact this

theorem reach_inv {s : Sys S} (h : Reach n P s) : Inv n P s := by
  induction h with
  | start => exact inv_start
  | step _ hs ih => exact inv_step ih hs

/-! ## What a call returns -/

/-- **C87, the part that holds**: a call returns the answers of all workers, in order, to this call. The answer of a worker of which a sample has been
taken already was made between two samples (or at the end of the dataset), after all the samples the main process has taken of it and at most two more.
What is missing: a worker that has not begun yet may answer before it restores its state (`C87_violated`). -/
theorem C87_answers_partial {s t : Sys S} {rs : List (Answer S)} (h : Reach n P s) (hr : Returns n P s t rs) :
    rs.length = n ∧ ∀ w (hw : w < rs.length), rs[w].call = s.calls ∧
      ((TooEarly (P w) rs[w] ∧ (s.procs w).taken = 0) ∨
        ∃ m, (s.procs w).taken ≤ m ∧ m ≤ (s.procs w).taken + 2 ∧ Between (P w) m rs[w]) := by
  obtain ⟨hs, hm, ht⟩ := hr
  have hl : rs.length = n := by
    cases hs with
    | ret hm' hk => rw [hm'] at hm; cases hm; exact hk
    | work _ _ => rw [show (s.set _ _).main = s.main from rfl, hm] at ht; cases ht
    | recv _ _ _ => rw [show (s.set _ _).main = s.main from rfl, hm] at ht; cases ht
    | call _ => cases ht
    | send _ _ => cases ht
    | sent _ => cases ht
    | get _ _ _ => cases ht
  exact ⟨hl, ((reach_inv h).got rs hm).2⟩

/-- **C87.** No command is executed while a sample is being fetched. -/
theorem C87_exclusive {s : Sys S} (h : Reach n P s) {w : Nat} (hw : w < n) :
    ¬ ((s.procs w).gen = .locked ∧ ∃ c, (s.procs w).thr = .holding c) :=
  fun ⟨h1, c, h2⟩ => ((reach_inv h).proc w hw).mutex h1 c h2

/-! ## Every call returns -/

/-- **C87.** No deadlock: in the middle of a call there is always a step. -/
theorem C87_no_deadlock {s : Sys S} (h : Reach n P s) (hc : InCall s) : ∃ t, Step n P s t := by
  have hi := reach_inv h
  cases hm : s.main with
  | idle last => exact absurd hm (hc last)
  | sending k =>
    by_cases hk : k < n
    · exact ⟨_, .send hm hk⟩
    · have := hi.sending k hm
      have e : k = n := by omega
      subst e
      exact ⟨_, .sent hm⟩
  | getting rs =>
    by_cases hk : rs.length = n
    · exact ⟨_, .ret hm hk⟩
    · have hlt : rs.length < n := by have := (hi.got rs hm).1; omega
      have hp := hi.proc rs.length hlt
      have hone : One s.calls (s.procs rs.length) := by
        have := hi.cmd rs.length hlt
        unfold CmdOk at this
        rw [hm] at this
        simpa using this
      rcases hone with ⟨h1, h2, h3 | h3⟩ | ⟨h1, h2, h3 | h3⟩ | ⟨h1, h2, r, h3, h4⟩
      · have hg := hp.fresh h3
        have ht := hp.tasks
        unfold TasksOk at ht
        rw [hg] at ht
        exact ⟨_, .work hlt (.start hg ht.2.1)⟩
      · exact ⟨_, .work hlt (.take h3 h1)⟩
      · by_cases hg : (s.procs rs.length).gen = .locked
        · rcases hf : (P rs.length).fetch (s.procs rs.length).attr with ⟨a, b⟩
          cases b
          · exact ⟨_, .work hlt (.ends hg hf)⟩
          · exact ⟨_, .work hlt (.yields hg hf)⟩
        · exact ⟨_, .work hlt (.acquire h3 hg)⟩
      · exact ⟨_, .work hlt (.answer h3)⟩
      · exact ⟨_, .get hm hlt h3⟩

def genRank : Gen → Nat
  | .fresh => 5
  | .starting => 4
  | .locked => 2
  | .suspended => 3
  | .finishing => 4
  | .ended => 0

def thrRank : Thr → Nat
  | .none => 0
  | .waiting => 0
  | .got _ => 2
  | .holding _ => 1

/-- What is left to do in a worker process -/
def work (p : Proc S) : Nat := 10 * p.tasks + genRank p.gen + 3 * p.cmds.length + thrRank p.thr

def mainWork (n : Nat) : Main S → Nat
  | .idle _ => 0
  | .sending k => 4 * (n - k) + n + 2
  | .getting rs => n - rs.length + 1

def sumWork (f : Nat → Proc S) : Nat → Nat
  | 0 => 0
  | k + 1 => sumWork f k + work (f k)

/-- What is left to do -/
def total (n : Nat) (s : Sys S) : Nat := mainWork n s.main + sumWork s.procs n

theorem sumWork_set (s : Sys S) (w : Nat) (p : Proc S) (k : Nat) :
    sumWork (s.set w p).procs k + (if w < k then work (s.procs w) else 0) = sumWork s.procs k + (if w < k then work p else 0) := by
  induction k with
  | zero => simp [sumWork]
  | succ k ih =>
    simp only [sumWork]
    by_cases hk : w = k
    · subst hk
      rw [set_same]
      simp only [Nat.lt_irrefl, if_false, Nat.lt_succ_self, if_true] at ih ⊢
      omega
    · rw [set_other _ _ (Ne.symm hk)]
      by_cases hlt : w < k
      · simp only [hlt, if_true, Nat.lt_succ_of_lt hlt] at ih ⊢
        omega
      · have : ¬ w < k + 1 := by omega
        simp only [hlt, if_false, this] at ih ⊢
        omega

theorem work_step {P : Code S} {p q : Proc S} (hp : PInv P p) (h : PStep P p q) : work q < work p := by
  have h3 := hp.tasks
  unfold TasksOk at h3
  unfold work
  cases h with
  | start h ht =>
    simp only [h, genRank] at h3 ⊢
    simp only [h3.2.2, thrRank]
    omega
  | lock h hl => simp only [h, genRank]; omega
  | yields h hf => simp only [h, genRank] at h3 ⊢; omega
  | resume h ht hl => simp only [h, genRank]; omega
  | ends h hf => simp only [h, genRank] at h3 ⊢; omega
  | close h => simp only [h, genRank]; omega
  | drop h ht => simp only [h, genRank] at h3 ⊢; omega
  | take h hc => simp only [h, hc, thrRank, List.length_cons]; omega
  | acquire h hl => simp only [h, thrRank]; omega
  | answer h => simp only [h, thrRank]; omega

theorem total_step {s t : Sys S} (hi : Inv n P s) (hc : InCall s) (h : Step n P s t) : total n t < total n s := by
  cases h with
  | @work w p hw h =>
    have := sumWork_set s w p n
    simp only [hw, if_true] at this
    have hlt := work_step (hi.proc w hw) h
    unfold total
    rw [show (s.set w p).main = s.main from rfl]
    omega
  | recv hm _ _ => exact absurd hm (hc _)
  | call hm => exact absurd hm (hc _)
  | @send k hm hk =>
    have := sumWork_set s k { s.procs k with cmds := (s.procs k).cmds ++ [s.calls] } n
    simp only [hk, if_true] at this
    have e : work ({ s.procs k with cmds := (s.procs k).cmds ++ [s.calls] } : Proc S) = work (s.procs k) + 3 := by
      simp only [work, List.length_append, List.length_singleton]; omega
    rw [e] at this
    unfold total
    rw [hm]
    simp only [mainWork]
    show 4 * (n - (k + 1)) + n + 2 + sumWork (s.set k _).procs n < _
    omega
  | sent hm =>
    unfold total
    rw [hm]
    simp only [mainWork, List.length_nil]
    omega
  | @get rs r l hm hk hr =>
    have := sumWork_set s rs.length { s.procs rs.length with results := l } n
    simp only [hk, if_true] at this
    have e : work ({ s.procs rs.length with results := l } : Proc S) = work (s.procs rs.length) := rfl
    rw [e] at this
    unfold total
    rw [hm]
    simp only [mainWork, List.length_append, List.length_singleton]
    show n - (rs.length + 1) + 1 + sumWork (s.set rs.length _).procs n < _
    omega
  | ret hm hk =>
    unfold total
    rw [hm]
    simp only [mainWork]
    omega

/-- **C87.** Every call returns, whatever the order of the steps of the threads (no fairness is needed): an execution in which every state is
in the middle of a call has an end, and (`C87_no_deadlock`) it is not stuck there. -/
theorem C87_returns (f : Nat → Sys S) (h0 : Reach n P (f 0)) (hf : ∀ i, Step n P (f i) (f (i + 1))) : ∃ i, ¬ InCall (f i) := by
  apply Classical.byContradiction
  intro hno
  have hall : ∀ i, InCall (f i) := fun i => Classical.byContradiction fun h => hno ⟨i, h⟩
  have hreach : ∀ i, Reach n P (f i) := by
    intro i
    induction i with
    | zero => exact h0
    | succ i ih => exact .step ih (hf i)
  have hdec : ∀ i, total n (f i) + i ≤ total n (f 0) := by
    intro i
    induction i with
    | zero => exact Nat.le_refl _
    | succ i ih =>
      have := total_step (reach_inv (hreach i)) (hall i) (hf i)
      omega
  have := hdec (total n (f 0) + 1)
  omega

/-! ## Examples, and the counterexample -/

/-- A worker whose attributes are a position: it restores position 7, and has 3 samples -/
def exCode (_w : Nat) : Code Nat := ⟨0, fun _ => 7, fun k => (k + 1, decide (k < 10)), fun k => k⟩

/-- One worker process in the states of the traces below -/
def exSys (m : Main Nat) (calls : Nat) (p : Proc Nat) : Sys Nat := { start exCode with main := m, calls := calls }.set 0 p

theorem exSys_set (m : Main Nat) (calls : Nat) (p q : Proc Nat) : (exSys m calls p).set 0 q = exSys m calls q := by
  simp only [exSys, Sys.set, start, Sys.mk.injEq, true_and]
  funext v
  by_cases h : v = 0 <;> simp [h]

theorem ex_work {m : Main Nat} {calls : Nat} {p q : Proc Nat} (h : Reach 1 exCode (exSys m calls p)) (hs : PStep (exCode 0) p q) :
    Reach 1 exCode (exSys m calls q) := by
  rw [← exSys_set m calls p q]
  exact .step h (.work (w := 0) (by omega) (by rw [show (exSys m calls p).procs 0 = p from set_same _ _ _]; exact hs))

theorem ex_start : Reach 1 exCode (exSys (.idle none) 0 ⟨.fresh, 0, 2, 0, 0, [], .none, []⟩) := by
  have : exSys (.idle none) 0 ⟨.fresh, 0, 2, 0, 0, [], .none, []⟩ = start exCode := by
    simp only [exSys, Sys.set, start, Sys.mk.injEq, true_and]
    funext v
    by_cases h : v = 0 <;> simp [h, exCode]
  rw [this]
  exact .start

/-- A call begins, and its command is in the queue. -/
theorem ex_call {calls : Nat} {last : Option (List (Answer Nat))} {p : Proc Nat} (h : Reach 1 exCode (exSys (.idle last) calls p)) :
    Reach 1 exCode (exSys (.getting []) (calls + 1) { p with cmds := p.cmds ++ [calls + 1] }) := by
  have h1 : Reach 1 exCode (exSys (.sending 0) (calls + 1) p) := .step h (.call (last := last) rfl)
  have h2 : Reach 1 exCode (exSys (.sending 1) (calls + 1) { p with cmds := p.cmds ++ [calls + 1] }) := by
    have := Step.send (n := 1) (P := exCode) (s := exSys (.sending 0) (calls + 1) p) (k := 0) rfl (by omega)
    rw [show (exSys (.sending 0) (calls + 1) p).procs 0 = p from set_same _ _ _, exSys_set] at this
    exact .step h1 this
  exact .step h2 (.sent rfl)

/-- The answer is there and is taken. -/
theorem ex_get {calls : Nat} {p : Proc Nat} {r : Answer Nat} {l : List (Answer Nat)} (h : Reach 1 exCode (exSys (.getting []) calls p))
    (hr : p.results = r :: l) : Reach 1 exCode (exSys (.getting [r]) calls { p with results := l }) := by
  have := Step.get (n := 1) (P := exCode) (s := exSys (.getting []) calls p) (rs := []) (r := r) (l := l) rfl (by show 0 < 1; omega)
    (by rw [show (exSys (.getting []) calls p).procs ([] : List (Answer Nat)).length = p from set_same _ _ _]; exact hr)
  rw [show (exSys (.getting []) calls p).procs ([] : List (Answer Nat)).length = p from set_same _ _ _] at this
  rw [show (exSys (.getting []) calls p).set ([] : List (Answer Nat)).length { p with results := l } =
    exSys (.getting []) calls { p with results := l } from exSys_set _ _ _ _] at this
  exact .step h this

theorem ex_returns {calls : Nat} {p : Proc Nat} {r : Answer Nat} :
    Returns 1 exCode (exSys (.getting [r]) calls p) (exSys (.idle (some [r])) calls p) [r] :=
  ⟨.ret rfl rfl, rfl, rfl⟩

/-- The hypotheses are met: a call that returns when the worker has produced one sample, taken by the main process -/
theorem ex_between : ∃ s t, Reach 1 exCode s ∧ Returns 1 exCode s t [⟨1, .suspended, 8⟩] ∧ (s.procs 0).taken = 1 := by
  have h := ex_start
  replace h := ex_work h (.start rfl (by show 0 < 2; omega))
  replace h := ex_work h (.lock rfl (fun c hc => (by cases hc)))
  replace h := ex_work h (.yields (a := 8) rfl rfl)
  have h' := Reach.step h (Step.recv (w := 0) (last := none) rfl (by omega) (by
    rw [show (exSys _ _ _).procs 0 = _ from set_same _ _ _]; show 0 < 1; omega))
  rw [show ∀ (p : Proc Nat), (exSys (.idle none) 0 p).procs 0 = p from fun p => set_same _ _ _, exSys_set] at h'
  replace h := ex_call h'
  replace h := ex_work h (.take rfl rfl)
  replace h := ex_work h (.acquire rfl (by intro hc; cases hc))
  replace h := ex_work h (.answer rfl)
  replace h := ex_get h rfl
  exact ⟨_, _, h, ex_returns, by rw [show (exSys _ _ _).procs 0 = _ from set_same _ _ _]⟩

/-- The worker answers before it has restored its state. -/
theorem ex_early : ∃ s t, Reach 1 exCode s ∧ Returns 1 exCode s t [⟨1, .starting, 0⟩] := by
  have h := ex_call ex_start
  replace h := ex_work h (.start rfl (by show 0 < 2; omega))
  replace h := ex_work h (.take rfl rfl)
  replace h := ex_work h (.acquire rfl (by intro hc; cases hc))
  replace h := ex_work h (.answer rfl)
  replace h := ex_get h rfl
  exact ⟨_, _, h, ex_returns⟩

/-- **C87 is violated**: the command thread is started before the lock is taken and before the state is restored (savable_loader.py:358-374); a command
that is there already may be executed in between. -/
theorem C87_violated : ¬ C87_statement := by
  intro h
  obtain ⟨s, t, h1, h2⟩ := ex_early
  obtain ⟨_, h3⟩ := h Nat 1 exCode s t _ h1 h2
  obtain ⟨_, m, _, _, h4⟩ := h3 0 (by show 0 < 1; omega)
  rcases h4 with ⟨h4, _⟩ | ⟨h4, _⟩ | ⟨h4, _⟩ <;> cases h4

/-- What the caller gets then: a worker with a state to be restored (of sample `k.idx`, `k.offset` to be skipped) answers with the initial state, one
sample to be skipped, whatever the state to be restored is. (The counter of the main process is 0: no sample has been taken.) -/
theorem C87_early_checkpoint {σ κ C : Type} (D : Stream.Dataset σ (Stream.Smp C) κ) :
    (getCheckpoint (wfresh D).2 0).map (fun k => (k.data.isNone, k.idx, k.offset)) = some (true, 0, 1) := rfl

end Verif.Loader.Cmd
