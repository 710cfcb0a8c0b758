import Verif.Loader.EpochLoader

/-!
# C123: saving and resuming a loader over several passes (validation)

Source: /repo src/megatron/energon/savable_loader.py:353-457, 482-534, 548-573, 880-910 (models of C36 and C122, unchanged). C122 needs datasets that, saved behind the last sample of a pass, go on with the next pass. Datasets without
virtual epochs resume exactly or up to the end of the pass: saved there they may first report the end of the pass. With such a dataset, what a restored worker does depends on which checkpoint is found.
-/

namespace Verif.Loader

open Verif.Stream

variable {σ κ C : Type}

/-! ### Specification -/

/-- Histories of one worker, as `IncP`, but the state is not saved in the moment in which the user has got the last sample of a pass and the worker has not yet answered with the end of this pass. -/
inductive IncV (D : Dataset σ (Smp C) κ) (ends : Nat → Bool) (gid : Nat) : σ × WAttr κ → Nat → Prop where
  | fresh : IncV D ends gid (wfresh D) 0
  | restored {u : σ × WAttr κ} {c : Nat} {cfg : Cfg} {evs : List (Ev (Nat × Smp C))} {p : σ × WAttr κ} {c' : Nat} {k : WState κ} :
      IncV D ends gid u c → Does D cfg gid u evs p → c < c' → c' ≤ c + (itemsOf evs).length → (ends c' = true → c' = c + (itemsOf evs).length → ∃ evs', evs = evs' ++ [.fin]) →
      getCheckpoint p.2 (c' - 1) = some k → IncV D ends gid (wresume D k) c'

/-- Histories of a loader, as `LIncP`, with this condition for each worker: if all its samples of the current loop have been delivered, it has answered with the end of the pass. -/
inductive LIncV (n rank : Nat) (D : Nat → Dataset σ (Smp C) κ) : (Nat → σ × WAttr κ) → (Nat → Nat) → Nat → Prop where
  | new : LIncV n rank D (fun w => wfresh (D w)) (fun _ => 0) 0
  | restored {us cs off cfg T xs past} {s : Sys (Got C)} {k : LState κ} :
      LIncV n rank D us cs off → (∀ w < n, 2 ≤ (cfg w).keep ∧ 2 * n ≤ (cfg w).minN) →
      LifeP n rank D us off cfg T xs past s → s.phase ≠ .busy → (∀ w < n, 0 < (fromWorker w (delivered past s)).length) →
      (∀ w < n, (fromWorker w (got s)).length = (xs past.length w).length → (xs past.length w).length < answeredP n off s w) →
      saveP n (fun w => attrsP T xs past.length w (answeredP n off s w)) past s = some k →
      LIncV n rank D (fun w => wresume (D w) (k.workers w)) (fun w => cs w + (fromWorker w (delivered past s)).length) k.next

/-! ### Proofs: a dataset that goes on with the next pass -/

open Classical in
/-- `D`, but a restored state that would first report the end of a pass begins the next pass instead. -/
noncomputable def skipEnd (D : Dataset σ (Smp C) κ) : Dataset σ (Smp C) κ :=
  { D with resume := fun k => if h : ∃ s', Obs D.step (D.resume k) (.fin s') then h.choose else D.resume k }

theorem skipEnd_trace {D : Dataset σ (Smp C) κ} {s : σ} {evs : List (Ev (Smp C))} : (skipEnd D).Trace s evs ↔ D.Trace s evs := by
  constructor
  · intro h
    induction h with
    | nil => exact .nil
    | item h _ ih => exact .item h ih
    | fin h _ ih => exact .fin h ih
    | err h => exact .err h
  · intro h
    induction h with
    | nil => exact .nil
    | item h _ ih => exact .item (D := skipEnd D) h ih
    | fin h _ ih => exact .fin (D := skipEnd D) h ih
    | err h => exact .err (D := skipEnd D) h

theorem skipEnd_equiv {D : Dataset σ (Smp C) κ} {s t : σ} : (skipEnd D).Equiv s t ↔ D.Equiv s t := by
  unfold Dataset.Equiv
  simp only [skipEnd_trace]

theorem skipEnd_resume_fin {D : Dataset σ (Smp C) κ} {k : κ} {t : σ} (h : Obs D.step (D.resume k) (.fin t)) : (skipEnd D).resume k = t := by
  have h' : ∃ s', Obs D.step (D.resume k) (.fin s') := ⟨t, h⟩
  have : (skipEnd D).resume k = h'.choose := dif_pos h'
  rw [this]
  cases Obs.det h'.choose_spec h
  rfl

theorem skipEnd_resume_other {D : Dataset σ (Smp C) κ} {k : κ} (h : ¬ ∃ t, Obs D.step (D.resume k) (.fin t)) : (skipEnd D).resume k = D.resume k := dif_neg h

theorem skipEnd_paused {D : Dataset σ (Smp C) κ} {s : σ} (h : (skipEnd D).Paused false s) : D.Paused false s := by
  induction h with
  | init => exact .init
  | item _ h ih => exact .item ih h
  | fin _ h ih => exact .fin ih h
  | @resume s _ ih =>
    by_cases h : ∃ t, Obs D.step (D.resume (D.save s)) (.fin t)
    · obtain ⟨t, h⟩ := h
      have e : (skipEnd D).resume ((skipEnd D).save s) = t := skipEnd_resume_fin h
      rw [e]
      exact .fin (.resume ih) h
    · have e : (skipEnd D).resume ((skipEnd D).save s) = D.resume (D.save s) := skipEnd_resume_other h
      rw [e]
      exact .resume ih
  | reset h => cases h

section
variable {D : Dataset σ (Smp C) κ} {f : Nat → Smp C} {ends : Nat → Bool} {st fn : Nat → σ}

theorem cur_item (hr : PassRun D f ends st fn) {s : σ} {j : Nat} (h : D.Equiv s (cur ends st fn j)) : ¬ ∃ t, Obs D.step s (.fin t) := by
  rintro ⟨t, h1⟩
  obtain ⟨s', h2, -⟩ := item_of_equiv h (hr.item j)
  cases Obs.det h1 h2

/-- All states are positions of the run. -/
theorem paused_at (hD : D.ResumesUpToEnd) (hr : PassRun D f ends st fn) {s : σ} (h : D.Paused false s) : ∃ j, (ends j = true ∧ D.Equiv s (st j)) ∨ D.Equiv s (cur ends st fn j) := by
  have fin_at : ∀ {s s' : σ}, (∃ j, (ends j = true ∧ D.Equiv s (st j)) ∨ D.Equiv s (cur ends st fn j)) → Obs D.step s (.fin s') → ∃ j, D.Equiv s' (cur ends st fn j) := by
    rintro s s' ⟨j, ⟨he, h⟩ | h⟩ ho
    · obtain ⟨t, h1, h2⟩ := fin_of_equiv h (hr.fin j he)
      cases Obs.det ho h1
      exact ⟨j, by rw [cur, if_pos he]; exact h2⟩
    · exact absurd ⟨_, ho⟩ (cur_item hr h)
  induction h with
  | init =>
    refine ⟨0, .inr ?_⟩
    rw [cur, hr.zero, ← hr.init]
    exact Dataset.Equiv.refl _
  | @item s a s' _ ho ih =>
    obtain ⟨j, ⟨he, h⟩ | h⟩ := ih
    · obtain ⟨t, h1, -⟩ := fin_of_equiv h (hr.fin j he)
      cases Obs.det ho h1
    · obtain ⟨t, h1, h2⟩ := item_of_equiv h (hr.item j)
      cases Obs.det ho h1
      by_cases he : ends (j + 1) = true
      · exact ⟨j + 1, .inl ⟨he, h2⟩⟩
      · exact ⟨j + 1, .inr (by rw [cur, if_neg he]; exact h2)⟩
  | fin _ ho ih =>
    obtain ⟨j, h⟩ := fin_at ih ho
    exact ⟨j, .inr h⟩
  | @resume s hp ih =>
    rcases hD s hp with h1 | ⟨s', h1, h2⟩
    · obtain ⟨j, h⟩ := ih
      exact ⟨j, h.imp (fun h => ⟨h.1, h1.symm.trans h.2⟩) h1.symm.trans⟩
    · obtain ⟨j, h⟩ := fin_at ih h1
      exact ⟨j, .inr (h2.symm.trans h)⟩
  | reset h => cases h

/-- No pass is empty. -/
theorem fin_item (hD : D.ResumesUpToEnd) (hr : PassRun D f ends st fn) {s s' : σ} (h : D.Paused false s) (ho : Obs D.step s (.fin s')) : ¬ ∃ t, Obs D.step s' (.fin t) := by
  obtain ⟨j, ⟨he, h1⟩ | h1⟩ := paused_at hD hr h
  · obtain ⟨t, h2, h3⟩ := fin_of_equiv h1 (hr.fin j he)
    cases Obs.det ho h2
    exact cur_item (j := j) hr (by rw [cur, if_pos he]; exact h3)
  · exact absurd ⟨_, ho⟩ (cur_item hr h1)

theorem skipEnd_cases (hD : D.ResumesUpToEnd) (hr : PassRun D f ends st fn) {s : σ} (h : D.Paused false s) :
    ((¬ ∃ t, Obs D.step s (.fin t)) ∧ (skipEnd D).resume (D.save s) = D.resume (D.save s) ∧ D.Equiv s (D.resume (D.save s))) ∨ ∃ s', Obs D.step s (.fin s') ∧ D.Equiv s' ((skipEnd D).resume (D.save s)) := by
  rcases hD s h with h1 | ⟨s', h1, h2⟩
  · by_cases h2 : ∃ t, Obs D.step (D.resume (D.save s)) (.fin t)
    · obtain ⟨t, h2⟩ := h2
      obtain ⟨s', h3, h4⟩ := fin_of_equiv h1 h2
      exact .inr ⟨s', h3, by rw [skipEnd_resume_fin h2]; exact h4⟩
    · refine .inl ⟨?_, skipEnd_resume_other h2, h1⟩
      rintro ⟨t, h3⟩
      obtain ⟨t', h4, -⟩ := fin_of_equiv h1.symm h3
      exact h2 ⟨_, h4⟩
  · refine .inr ⟨s', h1, ?_⟩
    rw [skipEnd_resume_other]
    · exact h2
    · rintro ⟨t, h3⟩
      obtain ⟨t', h4, -⟩ := fin_of_equiv h2 h3
      exact fin_item hD hr h h1 ⟨_, h4⟩

theorem skipEnd_upToEnd (hD : D.ResumesUpToEnd) (hr : PassRun D f ends st fn) : (skipEnd D).ResumesUpToEnd := by
  intro s hs
  rcases skipEnd_cases hD hr (skipEnd_paused hs) with ⟨-, h1, h2⟩ | ⟨s', h1, h2⟩
  · left
    rw [skipEnd_equiv]
    show D.Equiv s ((skipEnd D).resume (D.save s))
    rw [h1]
    exact h2
  · exact .inr ⟨s', h1, skipEnd_equiv.2 h2⟩

theorem skipEnd_behind (hD : D.ResumesUpToEnd) (hr : PassRun D f ends st fn) : ResumesBehindEnd (skipEnd D) := by
  intro s s' hs ho
  rcases skipEnd_cases hD hr (skipEnd_paused hs) with ⟨h1, -⟩ | ⟨s'', h1, h2⟩
  · exact absurd ⟨_, ho⟩ h1
  · cases Obs.det ho h1
    exact skipEnd_equiv.2 h2

theorem skipEnd_run (hr : PassRun D f ends st fn) : PassRun (skipEnd D) f ends st fn := ⟨hr.init, hr.zero, hr.item, hr.fin⟩

theorem skipEnd_wstep (cfg : Cfg) (gid : Nat) : wstep (skipEnd D) cfg gid = wstep D cfg gid := rfl

theorem skipEnd_does {cfg : Cfg} {gid : Nat} {u p : σ × WAttr κ} {evs : List (Ev (Nat × Smp C))} (h : Does D cfg gid u evs p) : Does (skipEnd D) cfg gid u evs p := by
  induction h with
  | nil => exact .nil
  | item _ ho ih => exact .item ih ho
  | fin _ ho ih => exact .fin ih ho

/-! ### Proofs: the checkpoints of a worker -/

/-- The checkpoint is restored in the same way by both datasets. -/
def Same (D : Dataset σ (Smp C) κ) (cp : Cp κ) : Prop := resumeOpt (skipEnd D) cp.data = resumeOpt D cp.data

theorem same_of (hD : D.ResumesUpToEnd) (hr : PassRun D f ends st fn) {s : σ} (hp : D.Paused false s) (h : ¬ ∃ t, Obs D.step s (.fin t)) (i : Nat) : Same D ⟨some (D.save s), i⟩ := by
  rcases skipEnd_cases hD hr hp with ⟨-, h1, -⟩ | ⟨s', h1, -⟩
  · exact h1
  · exact absurd ⟨_, h1⟩ h

/-- What one answer stores. -/
theorem wobs_store {cfg : Cfg} {gid : Nat} {p : σ × WAttr κ} {o : Out (σ × WAttr κ) (Nat × Smp C)} (h : Obs (wstep D cfg gid) p o) :
    (∀ b q, o = .item b q → ∃ y : WAttr κ, y.cps = p.2.cps ∧ y.idx = q.2.idx ∧ q.2 = store cfg false (D.save q.1) y) ∧
    (∀ q, o = .fin q → ∃ y : WAttr κ, y.cps = p.2.cps ∧ y.idx = q.2.idx ∧ q.2 = store cfg true (D.save q.1) y) := by
  induction h with
  | @item p a q h =>
    obtain ⟨s, x⟩ := p
    refine ⟨fun b q' e => ?_, fun q' e => (by cases e)⟩
    cases e
    cases hx : x.ctl with
    | fresh => simp only [wstep, hx] at h; cases h
    | run lws has =>
      simp only [wstep, hx] at h
      cases hs : D.step s with
      | yield b s' =>
        simp only [hs] at h
        split at h
        · cases h
        · cases h
          exact ⟨{ x with idx := x.idx + 1, ctl := .run false true }, rfl, (store_idx _ _ _).1.symm, rfl⟩
      | skip s' => simp only [hs] at h; cases h
      | stop s' => simp only [hs] at h; split at h <;> cases h
      | raise => simp only [hs] at h; cases h
  | @fin p q h =>
    obtain ⟨s, x⟩ := p
    refine ⟨fun b q' e => (by cases e), fun q' e => ?_⟩
    cases e
    cases hx : x.ctl with
    | fresh => simp only [wstep, hx] at h; cases h
    | run lws has =>
      simp only [wstep, hx] at h
      cases hs : D.step s with
      | yield b s' => simp only [hs] at h; split at h <;> cases h
      | skip s' => simp only [hs] at h; cases h
      | stop s' =>
        simp only [hs] at h
        split at h
        · cases h
        · cases h
          exact ⟨{ x with ctl := .fresh }, rfl, (store_idx _ _ _).1.symm, rfl⟩
      | raise => simp only [hs] at h; cases h
  | err h => exact ⟨fun b q e => (by cases e), fun q e => (by cases e)⟩
  | @skip p p' o h _ ih =>
    have e : p'.2.cps = p.2.cps := by
      obtain ⟨s, x⟩ := p
      cases hx : x.ctl with
      | fresh => simp only [wstep, hx] at h; cases h; rfl
      | run lws has =>
        simp only [wstep, hx] at h
        cases hs : D.step s with
        | yield b s' =>
          simp only [hs] at h
          split at h
          · cases h; rfl
          · cases h
        | skip s' => simp only [hs] at h; cases h; rfl
        | stop s' =>
          simp only [hs] at h
          split at h
          · cases h; rfl
          · cases h
        | raise => simp only [hs] at h; cases h
    rw [e] at ih
    exact ih

/-- A checkpoint that the two datasets restore differently is the position of the worker, whose pass is at its end, or there is a newer one with the same index. -/
def Newer (D : Dataset σ (Smp C) κ) (ends : Nat → Bool) (p : σ × WAttr κ) : Prop :=
  ∀ pre cp post, p.2.cps = pre ++ cp :: post → Same D cp ∨ (AtEnd ends p ∧ cp.idx = p.2.idx) ∨ ∃ cp' ∈ post, cp'.idx = cp.idx

/-- The list behind `store`: unchanged, or the new one at the end and possibly the oldest dropped. -/
theorem store_list (cfg : Cfg) (force : Bool) (k : κ) (y : WAttr κ) :
    ((store cfg force k y).cps = y.cps ∧ force = false) ∨ (store cfg force k y).cps = y.cps ++ [⟨some k, y.idx⟩] ∨ (store cfg force k y).cps = (y.cps ++ [(⟨some k, y.idx⟩ : Cp κ)]).tail := by
  unfold store
  split
  · dsimp only
    split
    · exact .inr (.inr rfl)
    · exact .inr (.inl rfl)
  · next h =>
    refine .inl ⟨rfl, ?_⟩
    cases force
    · rfl
    · simp at h

/-- A checkpoint in the new list is the new one, at the end, or an old one, with all that were behind it. -/
theorem store_split {cfg : Cfg} {force : Bool} {k : κ} {y : WAttr κ} {pre post : List (Cp κ)} {cp : Cp κ} (h : (store cfg force k y).cps = pre ++ cp :: post) :
    cp = ⟨some k, y.idx⟩ ∨ ∃ pre' post', y.cps = pre' ++ cp :: post' ∧ post' ⊆ post ∧ (force = true → (⟨some k, y.idx⟩ : Cp κ) ∈ post) := by
  have main : ∀ (a : List (Cp κ)), y.cps ++ [(⟨some k, y.idx⟩ : Cp κ)] = a ++ cp :: post → cp = ⟨some k, y.idx⟩ ∨ ∃ pre' post', y.cps = pre' ++ cp :: post' ∧ post' ⊆ post ∧ (force = true → (⟨some k, y.idx⟩ : Cp κ) ∈ post) := by
    intro a e
    rcases List.eq_nil_or_concat post with e' | ⟨q, z, e'⟩
    · subst e'
      have := List.append_inj_right' e rfl
      exact .inl (List.cons.inj this).1.symm
    · rw [List.concat_eq_append] at e'
      subst e'
      rw [← List.cons_append, ← List.append_assoc] at e
      have h1 := List.append_inj_left' e rfl
      have h2 := (List.cons.inj (List.append_inj_right' e rfl)).1
      exact .inr ⟨a, q, h1, fun x hx => List.mem_append_left _ hx, fun _ => by rw [h2]; simp⟩
  rcases store_list cfg force k y with ⟨h1, h2⟩ | h1 | h1
  · rw [h1] at h
    exact .inr ⟨pre, post, h, fun _ h => h, fun e => by rw [h2] at e; cases e⟩
  · rw [h1] at h
    exact main pre h
  · rw [h1] at h
    cases hc : y.cps with
    | nil => rw [hc] at h; simp at h
    | cons z l =>
      rw [← hc]
      refine main (z :: pre) ?_
      rw [hc] at h ⊢
      simp only [List.cons_append, List.tail_cons] at h ⊢
      rw [h]

theorem Does.newer (hD : D.ResumesUpToEnd) (hr : PassRun D f ends st fn) {cfg : Cfg} {gid : Nat} {c : Nat} {u p : σ × WAttr κ} (hu : AtP (skipEnd D) ends st fn c u) (hn : ¬ AtEnd ends u)
    (hk : Newer D ends u) {evs : List (Ev (Nat × Smp C))} (h : Does D cfg gid u evs p) : Newer D ends p := by
  have hD' := skipEnd_upToEnd hD hr
  have hE' := skipEnd_behind hD hr
  have hr' := skipEnd_run hr
  induction h with
  | nil => exact hk
  | @item evs p b q hd ho ih =>
    have hp := (skipEnd_does hd).at hD' hE' hr' hu hn
    have hq := (skipEnd_does (hd.item ho)).at hD' hE' hr' hu hn
    obtain ⟨y, h1, h2, h3⟩ := (wobs_store ho).1 _ _ rfl
    have hnp : ¬ AtEnd ends p := by
      intro he
      obtain ⟨q', h4, -⟩ := hp.1.finish hD' hE' (cfg := cfg) (gid := gid) hr' he
      cases Obs.det ho h4
    have hctl : q.2.ctl = .run false true ∧ D.Equiv q.1 (st q.2.idx) := by
      obtain ⟨q', h4, h5, h6, -⟩ := hp.1.item hD' hE' (cfg := cfg) (gid := gid) hr' hnp
      cases Obs.det ho h4
      rcases h5.pos with ⟨h7, -⟩ | ⟨-, -, h7⟩
      · rw [h6] at h7; cases h7
      · exact ⟨h6, skipEnd_equiv.1 h7⟩
    intro pre cp post e
    rw [h3] at e
    rcases store_split e with h4 | ⟨pre', post', h4, h5, -⟩
    · subst h4
      by_cases he : ends q.2.idx = true
      · exact .inr (.inl ⟨⟨hctl.1, he⟩, h2⟩)
      · left
        refine same_of hD hr (skipEnd_paused hq.1.paused) (cur_item (j := q.2.idx) hr ?_) _
        rw [cur, if_neg he]
        exact hctl.2
    · rw [h1] at h4
      rcases ih _ _ _ h4 with h6 | ⟨h6, -⟩ | ⟨cp', h6, h7⟩
      · exact .inl h6
      · exact absurd h6 hnp
      · exact .inr (.inr ⟨cp', h5 h6, h7⟩)
  | @fin evs p q hd ho ih =>
    have hp := (skipEnd_does hd).at hD' hE' hr' hu hn
    obtain ⟨y, h1, h2, h3⟩ := (wobs_store ho).2 _ rfl
    have hep : AtEnd ends p := by
      by_contra he
      obtain ⟨q', h4, -⟩ := hp.1.item hD' hE' (cfg := cfg) (gid := gid) hr' he
      cases Obs.det ho h4
    obtain ⟨q', h4, h5, h6, h7, -⟩ := hp.1.finish hD' hE' (cfg := cfg) (gid := gid) hr' hep
    cases Obs.det ho h4
    have heq : D.Equiv q.1 (cur ends st fn q.2.idx) := by
      rcases h5.pos with ⟨-, h8⟩ | ⟨h8, -⟩
      · exact skipEnd_equiv.1 h8
      · rw [h6] at h8; cases h8
    have hidx : p.2.idx = c + (itemsOf evs).length := by
      have := hp.1.total
      rcases hp.1.pos with ⟨h8, -⟩ | ⟨-, h8, -⟩
      · rw [hep.1] at h8; cases h8
      · omega
    intro pre cp post e
    rw [h3] at e
    rcases store_split e with h8 | ⟨pre', post', h8, h9, h10⟩
    · subst h8
      left
      exact same_of hD hr (skipEnd_paused h5.paused) (cur_item hr heq) _
    · rw [h1] at h8
      rcases ih _ _ _ h8 with h11 | ⟨-, h11⟩ | ⟨cp', h11, h12⟩
      · exact .inl h11
      · exact .inr (.inr ⟨_, h10 rfl, by rw [h11, hidx, ← h7, ← h2]⟩)
      · exact .inr (.inr ⟨cp', h9 h11, h12⟩)

/-- The checkpoint that is found: all newer ones have a higher index. -/
theorem getCheckpoint_split {x : WAttr κ} {last : Nat} {k : WState κ} (h : getCheckpoint x last = some k) :
    ∃ pre cp post, x.cps = pre ++ cp :: post ∧ cp.idx ≤ last + 1 ∧ (∀ cp' ∈ post, ¬ cp'.idx ≤ last + 1) ∧ k = ⟨cp.data, cp.idx, last + 1 - cp.idx⟩ := by
  unfold getCheckpoint at h
  obtain ⟨cp, h1, rfl⟩ := Option.map_eq_some_iff.1 h
  obtain ⟨h2, as, bs, h3, h4⟩ := List.find?_eq_some_iff_append.1 h1
  refine ⟨bs.reverse, cp, as.reverse, ?_, by simpa using h2, fun cp' hcp' => ?_, rfl⟩
  · have := congrArg List.reverse h3
    simpa using this
  · have := h4 cp' (List.mem_reverse.1 hcp')
    simpa using this

/-- What is found when the state is saved is restored in the same way. -/
theorem resume_same (hD : D.ResumesUpToEnd) (hr : PassRun D f ends st fn) {gid : Nat} {u p : σ × WAttr κ} {c c' : Nat} (hu : IncP (skipEnd D) gid u c) (hnew : Newer D ends u) {cfg : Cfg} {evs : List (Ev (Nat × Smp C))}
    (hd : Does D cfg gid u evs p) (h1 : c < c') (h2 : c' ≤ c + (itemsOf evs).length) (hc : ends c' = true → c' = c + (itemsOf evs).length → ∃ evs', evs = evs' ++ [.fin]) {k : WState κ}
    (hg : getCheckpoint p.2 (c' - 1) = some k) : wresume D k = wresume (skipEnd D) k := by
  have hD' := skipEnd_upToEnd hD hr
  have hE' := skipEnd_behind hD hr
  have hr' := skipEnd_run hr
  obtain ⟨h3, h4, -⟩ := hu.at hD' hE' hr'
  have hfresh : ¬ AtEnd ends u := fun h => by have h := h.1; rw [h4] at h; cases h
  have hp := (skipEnd_does hd).at hD' hE' hr' h3 hfresh
  have hN := hd.newer hD hr h3 hfresh hnew
  have hsame : resumeOpt (skipEnd D) k.data = resumeOpt D k.data := by
    obtain ⟨pre, cp, post, h5, h6, h7, rfl⟩ := getCheckpoint_split hg
    rcases hN _ _ _ h5 with h8 | ⟨h8, h9⟩ | ⟨cp', h8, h9⟩
    · exact h8
    · exfalso
      have hidx : p.2.idx = c + (itemsOf evs).length := by
        have := hp.1.total
        rcases hp.1.pos with ⟨h10, -⟩ | ⟨-, h10, -⟩
        · rw [h8.1] at h10; cases h10
        · omega
      have hcc : c' = c + (itemsOf evs).length := by omega
      obtain ⟨evs', rfl⟩ := hc (by rw [hcc, ← hidx]; exact h8.2) hcc
      -- the last answer was the end of the pass
      have : p.2.ctl = .fresh := by
        generalize he : evs' ++ [.fin] = es at hd
        cases hd with
        | nil => simp at he
        | item _ _ => exact absurd (congrArg List.getLast? he) (by simp)
        | @fin es' p' _ hd' ho =>
          have hp' := (skipEnd_does hd').at hD' hE' hr' h3 hfresh
          have hep : AtEnd ends p' := by
            by_contra he
            obtain ⟨q', h4, -⟩ := hp'.1.item hD' hE' (cfg := cfg) (gid := gid) hr' he
            cases Obs.det ho h4
          obtain ⟨q', h4, -, h6, -⟩ := hp'.1.finish hD' hE' (cfg := cfg) (gid := gid) hr' hep
          cases Obs.det ho h4
          exact h6
      have h := h8.1
      rw [this] at h
      cases h
    · exact absurd (by rw [h9]; exact h6) (h7 cp' h8)
  unfold wresume
  rw [hsame]
  rfl

/-- A worker with `D` is one with `skipEnd D`. -/
theorem IncV.inc (hD : D.ResumesUpToEnd) (hr : PassRun D f ends st fn) {gid : Nat} {u : σ × WAttr κ} {c : Nat} (h : IncV D ends gid u c) : IncP (skipEnd D) gid u c ∧ Newer D ends u := by
  have hD' := skipEnd_upToEnd hD hr
  have hE' := skipEnd_behind hD hr
  have hr' := skipEnd_run hr
  induction h with
  | fresh =>
    refine ⟨.fresh, fun pre cp post e => .inl ?_⟩
    have : cp ∈ (wfresh D).2.cps := by rw [e]; simp
    simp only [wfresh, List.mem_singleton] at this
    subst this
    rfl
  | @restored u c cfg evs p c' k _ hd h1 h2 hc hg ih =>
    rw [resume_same hD hr ih.1 ih.2 hd h1 h2 hc hg]
    have hinc : IncP (skipEnd D) gid (wresume (skipEnd D) k) c' := .restored ih.1 (skipEnd_does hd) h1 h2 hg
    refine ⟨hinc, fun pre cp post e => .inl ?_⟩
    obtain ⟨h5, -, -⟩ := hinc.at hD' hE' hr'
    have hcp : cp ∈ (wresume (skipEnd D) k).2.cps := by rw [e]; simp
    simp only [wresume, List.mem_singleton] at hcp
    subst hcp
    have heq : D.Equiv (resumeOpt (skipEnd D) k.data) (cur ends st fn k.idx) := by
      rcases h5.pos with ⟨-, h6⟩ | ⟨h6, -⟩
      · exact skipEnd_equiv.1 h6
      · simp only [wresume] at h6; cases h6
    exact same_of hD hr (skipEnd_paused h5.paused) (cur_item hr heq) _

/-! ### The property: one worker -/

/-- **C123, one worker: what it answers.** For datasets that resume exactly or up to the end of the pass, in any pass: as in C122, exactly the samples behind those that have been delivered, and every pass ends where it ends in the
uninterrupted run. -/
theorem C123_worker_exact (hD : D.ResumesUpToEnd) (hr : PassRun D f ends st fn) {gid : Nat}
    {u : σ × WAttr κ} {c : Nat} (h : IncV D ends gid u c) {cfg : Cfg} {evs : List (Ev (Nat × Smp C))} {p : σ × WAttr κ} (hd : Does D cfg gid u evs p) :
    evs = eventsFrom f ends gid c (itemsOf evs).length ∨ evs ++ [.fin] = eventsFrom f ends gid c (itemsOf evs).length :=
  C122_worker_exact (skipEnd_upToEnd hD hr) (skipEnd_behind hD hr) (skipEnd_run hr) (h.inc hD hr).1 (skipEnd_does hd)

/-- The parameters of the worker of `C123_violated_timing`; `tick`: the time condition of `_store_checkpoint`. -/
def timingCfg (tick : Bool) : Cfg := ⟨2, 2, fun _ => tick⟩

/-- **C123 is violated** if the state is saved when the user has all samples of a pass (of three, with a dataset that resumes exactly at its first and its last sample): two new workers answer with the same samples, all of the first pass, and all of them have been delivered when the state is saved. In the first one the
time condition for a checkpoint has held, in the second one it has not. Restored, the first worker reports the end of the pass: the first loop of the user has nothing of it. The second one goes on with the first sample of the next pass. So
what the first loop after restoring contains depends on the clock. -/
theorem C123_violated_timing (hr : PassRun D f ends st fn) (hD1 : D.Equiv (st 1) (D.resume (D.save (st 1)))) (hD3 : D.Equiv (st 3) (D.resume (D.save (st 3)))) (h1 : ends 1 = false) (h2 : ends 2 = false) (h3 : ends 3 = true) (gid : Nat) (cfg : Cfg) :
    ∃ (evs : List (Ev (Nat × Smp C))) (p q : σ × WAttr κ) (k l : WState κ),
      evs = (List.range 3).map (fun i => .item (i, (f i).addKey (loaderKey gid i))) ∧
      Does D (timingCfg true) gid (wfresh D) evs p ∧ Does D (timingCfg false) gid (wfresh D) evs q ∧
      getCheckpoint p.2 2 = some k ∧ getCheckpoint q.2 2 = some l ∧
      (∃ p', Obs (wstep D cfg gid) (wresume D k) (.fin p')) ∧
      (∃ q', Obs (wstep D cfg gid) (wresume D l) (.item (3, (f 3).addKey (loaderKey gid 3)) q')) := by
  have i0 := hr.item 0
  rw [hr.zero, hr.init] at i0
  have i1 := hr.item 1
  rw [h1] at i1
  have i2 := hr.item 2
  rw [h2] at i2
  simp only [Bool.false_eq_true, if_false] at i0 i1 i2
  have p1 : D.Paused false (st 1) := .item .init i0
  have run : ∀ tick : Bool, Does D (timingCfg tick) gid (wfresh D) ((List.range 3).map (fun i => .item (i, (f i).addKey (loaderKey gid i))))
      (st 3, ⟨3, 0, if tick then [⟨some (D.save (st 1)), 1⟩, ⟨some (D.save (st 3)), 3⟩] else [⟨none, 0⟩, ⟨some (D.save (st 1)), 1⟩], .run false true⟩) := by
    intro tick
    have a0 : Obs (wstep D (timingCfg tick) gid) (wfresh D) (.item (0, (f 0).addKey (loaderKey gid 0)) (st 1, ⟨1, 0, [⟨none, 0⟩, ⟨some (D.save (st 1)), 1⟩], .run false true⟩)) := by
      cases tick <;> exact wobs_fresh rfl (wobs_item i0 rfl rfl)
    have a1 : Obs (wstep D (timingCfg tick) gid) (st 1, ⟨1, 0, [⟨none, 0⟩, ⟨some (D.save (st 1)), 1⟩], .run false true⟩)
        (.item (1, (f 1).addKey (loaderKey gid 1)) (st 2, ⟨2, 0, [⟨none, 0⟩, ⟨some (D.save (st 1)), 1⟩], .run false true⟩)) := by
      cases tick <;> exact wobs_item i1 rfl rfl
    have a2 : Obs (wstep D (timingCfg tick) gid) (st 2, ⟨2, 0, [⟨none, 0⟩, ⟨some (D.save (st 1)), 1⟩], .run false true⟩)
        (.item (2, (f 2).addKey (loaderKey gid 2)) (st 3, ⟨3, 0, if tick then [⟨some (D.save (st 1)), 1⟩, ⟨some (D.save (st 3)), 3⟩] else [⟨none, 0⟩, ⟨some (D.save (st 1)), 1⟩], .run false true⟩)) := by
      cases tick <;> exact wobs_item i2 rfl rfl
    exact ((Does.nil.item a0).item a1).item a2
  refine ⟨_, _, _, ⟨some (D.save (st 3)), 3, 0⟩, ⟨some (D.save (st 1)), 1, 2⟩, rfl, run true, run false, rfl, rfl, ?_, ?_⟩
  · obtain ⟨t, h4, -⟩ := fin_of_equiv hD3.symm (hr.fin 3 h3)
    exact ⟨_, wobs_fresh rfl (wobs_fin_empty h4 rfl)⟩
  · have heq : D.Equiv (D.resume (D.save (st 1))) (cur ends st fn 1) := by
      rw [cur, h1]
      exact hD1.symm
    obtain ⟨s', h4, -⟩ := item_next (cfg := cfg) (gid := gid) hr 2 (D.resume (D.save (st 1))) ⟨1, 2, [⟨some (D.save (D.resume (D.save (st 1)))), 1⟩], .run true false⟩ true false rfl rfl (.resume p1) heq
    exact ⟨_, wobs_fresh rfl h4⟩

end

end Verif.Loader
