import Verif.Gc.Model
import Mathlib.Data.List.Nodup
import Mathlib.Data.List.Perm.Subperm
import Mathlib.Data.List.Infix
import Mathlib.Data.List.Count
import Mathlib.Tactic.Ring
import Mathlib.Tactic.Linarith

/-! # C121: garbage is freed after at most `every_n_iter` samples -/

namespace Verif.Gc

variable {D : Nat → Ds}

/-! ## Specification -/

/-- Nothing refers to the object. -/
def Garbage (s : St) (o : Nat) : Prop := o ∉ s.held ∧ o ∉ frames s.runs

/-- Dataset `g` is in a pass. -/
def Running (s : St) (g : Nat) : Prop := ∃ r, s.runs[g]? = some (some r)

/-- How many samples dataset `g` was asked for after a sample. -/
def samples (g : Nat) (es : List Ev) : Nat := es.count (.resume g)

/-- What a process looks like: no object twice, references only to objects in memory. -/
structure Wf (s : St) : Prop where
  nodup : s.heap.Nodup
  bound : ∀ o ∈ s.heap, o < s.fresh
  held : ∀ o ∈ s.held, o ∈ s.heap
  frames : ∀ o ∈ frames s.runs, o ∈ s.heap
  perm : ∀ o ∈ s.perm, o ∈ s.heap

/-! ## Proofs -/

theorem frames_cons (r : Option Run) (rs : List (Option Run)) : frames (r :: rs) = (match r with | some r => r.last | none => []) ++ frames rs := by
  cases r <;> rfl

theorem mem_frames_set {rs : List (Option Run)} {g o : Nat} {x : Option Run} (h : o ∈ frames (rs.set g x)) : o ∈ frames rs ∨ ∃ r, x = some r ∧ o ∈ r.last := by
  induction rs generalizing g with
  | nil => simp [frames] at h
  | cons r rs ih =>
    cases g with
    | zero =>
      rw [List.set_cons_zero, frames_cons, List.mem_append] at h
      rcases h with h | h
      · cases x with
        | none => simp at h
        | some r => exact .inr ⟨r, rfl, h⟩
      · exact .inl (by rw [frames_cons, List.mem_append]; exact .inr h)
    | succ g =>
      rw [List.set_cons_succ, frames_cons, List.mem_append] at h
      rcases h with h | h
      · exact .inl (by rw [frames_cons, List.mem_append]; exact .inl h)
      · rcases ih h with h | h
        · exact .inl (by rw [frames_cons, List.mem_append]; exact .inr h)
        · exact .inr h

theorem frames_set_none {rs : List (Option Run)} {g o : Nat} (h : o ∈ frames (rs.set g none)) : o ∈ frames rs := by
  rcases mem_frames_set h with h | ⟨r, e, _⟩
  · exact h
  · cases e

theorem frames_set_same {rs : List (Option Run)} {g i j : Nat} {l : List Nat} {b c : Bool} (h : rs[g]? = some (some ⟨i, l, b⟩)) : frames (rs.set g (some ⟨j, l, c⟩)) = frames rs := by
  induction rs generalizing g with
  | nil => simp at h
  | cons r rs ih =>
    cases g with
    | zero =>
      simp only [List.getElem?_cons_zero, Option.some.injEq] at h
      subst h
      rw [List.set_cons_zero, frames_cons, frames_cons]
    | succ g =>
      rw [List.getElem?_cons_succ] at h
      rw [List.set_cons_succ, frames_cons, frames_cons, ih h]

theorem frames_replicate (m : Nat) : frames (List.replicate m none) = [] := by
  induction m with
  | zero => rfl
  | succ m ih => rw [List.replicate_succ, frames_cons, ih]; rfl

theorem wf_new (m : Nat) (w : Bool) : Wf (St.new m w) := by
  constructor <;> simp [St.new, frames_replicate]

theorem mem_collect {s : St} {o : Nat} : o ∈ (collect s).heap ↔ o ∈ s.heap ∧ (o ∈ s.held ∨ o ∈ frames s.runs ∨ o ∈ s.perm) := by
  simp [collect]

theorem wf_collect {s : St} (h : Wf s) : Wf (collect s) where
  nodup := h.nodup.filter _
  bound o ho := h.bound o (mem_collect.1 ho).1
  held o ho := mem_collect.2 ⟨h.held o ho, .inl ho⟩
  frames o ho := mem_collect.2 ⟨h.frames o ho, .inr (.inl ho)⟩
  perm o ho := mem_collect.2 ⟨h.perm o ho, .inr (.inr ho)⟩

theorem wf_step {s s' : St} {e : Ev} (h : Wf s) (hs : step D s e = some s') : Wf s' := by
  cases e with
  | alloc =>
    cases hs
    refine ⟨List.nodup_cons.2 ⟨fun hm => Nat.lt_irrefl _ (h.bound _ hm), h.nodup⟩, ?_, ?_, ?_, ?_⟩
    · intro o ho
      rcases List.mem_cons.1 ho with rfl | ho
      · exact Nat.lt_succ_self _
      · exact Nat.lt_succ_of_lt (h.bound o ho)
    · intro o ho
      rcases List.mem_cons.1 ho with rfl | ho
      · exact List.mem_cons_self
      · exact List.mem_cons_of_mem _ (h.held o ho)
    · exact fun o ho => List.mem_cons_of_mem _ (h.frames o ho)
    · exact fun o ho => List.mem_cons_of_mem _ (h.perm o ho)
  | drop o =>
    cases hs
    exact ⟨h.nodup, h.bound, fun p hp => h.held p (List.mem_filter.1 hp).1, h.frames, h.perm⟩
  | auto o =>
    simp only [step] at hs
    split at hs
    · cases hs
    · rename_i hn
      cases hs
      push Not at hn
      have ne : ∀ p, (p ∈ s.held ∨ p ∈ Gc.frames s.runs ∨ p ∈ s.perm) → p ≠ o := by
        rintro p hp rfl
        rcases hp with hp | hp | hp
        · exact hn.1 hp
        · exact hn.2.1 hp
        · exact hn.2.2 hp
      refine ⟨h.nodup.filter _, fun p hp => h.bound p (List.mem_filter.1 hp).1, ?_, ?_, ?_⟩
      · exact fun p hp => List.mem_filter.2 ⟨h.held p hp, by simpa using ne p (.inl hp)⟩
      · exact fun p hp => List.mem_filter.2 ⟨h.frames p hp, by simpa using ne p (.inr (.inl hp))⟩
      · exact fun p hp => List.mem_filter.2 ⟨h.perm p hp, by simpa using ne p (.inr (.inr hp))⟩
  | freeze => cases hs; exact ⟨h.nodup, h.bound, h.held, h.frames, fun p hp => hp⟩
  | unfreeze => cases hs; exact ⟨h.nodup, h.bound, h.held, h.frames, fun p hp => by cases hp⟩
  | init => cases hs; exact ⟨h.nodup, h.bound, h.held, h.frames, h.perm⟩
  | start g =>
    simp only [step] at hs
    split at hs <;> cases hs
    rename_i hg
    unfold start
    split
    · exact h
    · have key : ∀ t : St, Wf t → Wf { t with runs := t.runs.set g (some ⟨0, [], false⟩) } := by
        intro t ht
        refine ⟨ht.nodup, ht.bound, ht.held, ?_, ht.perm⟩
        intro p hp
        rcases mem_frames_set hp with hp | ⟨r, e, hr⟩
        · exact ht.frames p hp
        · cases e; cases hr
      have hf : ∀ t : St, Wf t → Wf (gcFreeze t) := fun t ht => ⟨ht.nodup, ht.bound, ht.held, ht.frames, fun p hp => hp⟩
      split
      · exact key _ (hf _ (wf_collect h))
      · exact key _ h
  | deliver g o =>
    simp only [step] at hs
    split at hs
    · rename_i i l hg
      split at hs <;> cases hs
      rename_i ho
      refine ⟨h.nodup, h.bound, h.held, ?_, h.perm⟩
      intro p hp
      rcases mem_frames_set hp with hp | ⟨r, e, hr⟩
      · exact h.frames p hp
      · cases e
        rw [List.mem_singleton.1 hr]
        exact h.held o ho
    · cases hs
  | resume g =>
    simp only [step] at hs
    split at hs <;> cases hs
    rename_i i l hg
    have hw : ∀ j, Wf { s with runs := s.runs.set g (some ⟨j, l, false⟩) } := by
      intro j
      refine ⟨h.nodup, h.bound, h.held, ?_, h.perm⟩
      show ∀ o ∈ Gc.frames (s.runs.set g (some ⟨j, l, false⟩)), o ∈ s.heap
      rw [frames_set_same hg]
      exact h.frames
    unfold resume
    split
    · exact wf_collect (hw _)
    · exact hw _
  | finish g =>
    simp only [step] at hs
    split at hs <;> cases hs
    have hw : Wf { s with runs := s.runs.set g none } := ⟨h.nodup, h.bound, h.held, fun p hp => h.frames p (frames_set_none hp), h.perm⟩
    unfold finish
    split
    · exact ⟨hw.nodup, hw.bound, hw.held, hw.frames, fun p hp => by cases hp⟩
    · exact hw

theorem run_append {s : St} (a b : List Ev) : run D s (a ++ b) = (run D s a).bind fun t => run D t b := by
  induction a generalizing s with
  | nil => rfl
  | cons e a ih =>
    simp only [List.cons_append, run]
    split
    · exact ih
    · rfl

theorem wf_run {s s' : St} {es : List Ev} (h : Wf s) (hs : run D s es = some s') : Wf s' := by
  induction es generalizing s with
  | nil => cases hs; exact h
  | cons e es ih =>
    simp only [run] at hs
    split at hs
    · rename_i t ht
      exact ih (wf_step h ht) hs
    · cases hs

/-- No run counts beyond `every_n_iter`. -/
def Counts (D : Nat → Ds) (s : St) : Prop := ∀ g r, s.runs[g]? = some (some r) → r.iter < max (D g).every 1

theorem runs_set {rs : List (Option Run)} {g h : Nat} {x : Option Run} {r : Run} (e : (rs.set g x)[h]? = some (some r)) : (h = g ∧ x = some r) ∨ rs[h]? = some (some r) := by
  rw [List.getElem?_set] at e
  split at e
  · rename_i hg
    split at e
    · exact .inl ⟨hg.symm, by simpa using e⟩
    · cases e
  · exact .inr e

theorem counts_step {s s' : St} {e : Ev} (h : Counts D s) (hs : step D s e = some s') : Counts D s' := by
  cases e with
  | alloc => cases hs; exact h
  | drop o => cases hs; exact h
  | auto o =>
    simp only [step] at hs
    split at hs <;> cases hs
    exact h
  | freeze => cases hs; exact h
  | unfreeze => cases hs; exact h
  | init => cases hs; exact h
  | start g =>
    simp only [step] at hs
    split at hs <;> cases hs
    unfold start
    split
    · exact h
    · intro k r e
      have e' : (s.runs.set g (some ⟨0, [], false⟩))[k]? = some (some r) := by
        revert e
        dsimp only
        split <;> exact id
      rcases runs_set e' with ⟨rfl, e2⟩ | e2
      · cases e2; show 0 < _; omega
      · exact h k r e2
  | deliver g o =>
    simp only [step] at hs
    split at hs
    · rename_i i l hg
      split at hs <;> cases hs
      intro k r e
      rcases runs_set e with ⟨rfl, e2⟩ | e2
      · cases e2; exact (h k ⟨i, l, false⟩ hg :)
      · exact h k r e2
    · cases hs
  | resume g =>
    simp only [step] at hs
    split at hs <;> cases hs
    rename_i i l hg
    unfold resume
    split
    · intro k r e
      rcases runs_set e with ⟨rfl, e2⟩ | e2
      · cases e2; show 0 < _; omega
      · exact h k r e2
    · rename_i hn
      intro k r e
      rcases runs_set e with ⟨rfl, e2⟩ | e2
      · cases e2; show i + 1 < _; dsimp only at hn; omega
      · exact h k r e2
  | finish g =>
    simp only [step] at hs
    split at hs <;> cases hs
    unfold finish
    intro k r e
    have e' : (s.runs.set g none)[k]? = some (some r) := by
      revert e
      dsimp only
      split <;> exact id
    rcases runs_set e' with ⟨rfl, e2⟩ | e2
    · cases e2
    · exact h k r e2

theorem counts_run {s s' : St} {es : List Ev} (h : Counts D s) (hs : run D s es = some s') : Counts D s' := by
  induction es generalizing s with
  | nil => cases hs; exact h
  | cons e es ih =>
    simp only [run] at hs
    split at hs
    · rename_i t ht
      exact ih (counts_step h ht) hs
    · cases hs

theorem counts_new (m : Nat) (w : Bool) : Counts D (St.new m w) := by
  intro g r e
  simp only [St.new, List.getElem?_replicate] at e
  split at e <;> cases e

/-- Not referred to, and not in the permanent generation. -/
structure Dead (s : St) (o : Nat) : Prop where
  held : o ∉ s.held
  frames : o ∉ frames s.runs
  perm : o ∉ s.perm
  old : o < s.fresh

theorem Dead.collected {s : St} {o : Nat} (h : Dead s o) : o ∉ (collect s).heap := by
  rw [mem_collect]
  rintro ⟨_, h1 | h1 | h1⟩
  · exact h.held h1
  · exact h.frames h1
  · exact h.perm h1

theorem dead_step {s s' : St} {e : Ev} {o : Nat} (h : Dead s o) (hs : step D s e = some s') (he : e ≠ .freeze) : Dead s' o ∧ (o ∉ s.heap → o ∉ s'.heap) := by
  cases e with
  | alloc =>
    cases hs
    have hne : o ≠ s.fresh := Nat.ne_of_lt h.old
    exact ⟨⟨by simp [hne, h.held], h.frames, h.perm, Nat.lt_succ_of_lt h.old⟩, fun hh => by simp [hne, hh]⟩
  | drop p =>
    cases hs
    exact ⟨⟨fun hm => h.held (List.mem_filter.1 hm).1, h.frames, h.perm, h.old⟩, id⟩
  | auto p =>
    simp only [step] at hs
    split at hs <;> cases hs
    exact ⟨⟨h.held, h.frames, h.perm, h.old⟩, fun hh hm => hh (List.mem_filter.1 hm).1⟩
  | freeze => exact absurd rfl he
  | unfreeze => cases hs; exact ⟨⟨h.held, h.frames, (fun hm => by cases hm), h.old⟩, id⟩
  | init => cases hs; exact ⟨⟨h.held, h.frames, h.perm, h.old⟩, id⟩
  | start g =>
    simp only [step] at hs
    split at hs <;> cases hs
    unfold start
    split
    · exact ⟨h, id⟩
    · have hf : o ∉ frames (s.runs.set g (some ⟨0, [], false⟩)) := by
        intro hm
        rcases mem_frames_set hm with hm | ⟨r, e, hr⟩
        · exact h.frames hm
        · cases e; cases hr
      dsimp only
      split
      · exact ⟨⟨h.held, hf, h.collected, h.old⟩, fun _ => h.collected⟩
      · exact ⟨⟨h.held, hf, h.perm, h.old⟩, id⟩
  | deliver g p =>
    simp only [step] at hs
    split at hs
    · split at hs <;> cases hs
      rename_i hp
      refine ⟨⟨h.held, ?_, h.perm, h.old⟩, id⟩
      intro hm
      rcases mem_frames_set hm with hm | ⟨r, e, hr⟩
      · exact h.frames hm
      · cases e
        rw [List.mem_singleton.1 hr] at h
        exact h.held hp
    · cases hs
  | resume g =>
    simp only [step] at hs
    split at hs <;> cases hs
    rename_i i l hg
    have hd : ∀ j, Dead { s with runs := s.runs.set g (some ⟨j, l, false⟩) } o := by
      intro j
      refine ⟨h.held, ?_, h.perm, h.old⟩
      show o ∉ Gc.frames (s.runs.set g (some ⟨j, l, false⟩))
      rw [frames_set_same hg]
      exact h.frames
    unfold resume
    split
    · exact ⟨⟨h.held, (hd 0).frames, h.perm, h.old⟩, fun _ => (hd 0).collected⟩
    · exact ⟨hd _, id⟩
  | finish g =>
    simp only [step] at hs
    split at hs <;> cases hs
    have hf : o ∉ frames (s.runs.set g none) := fun hm => h.frames (frames_set_none hm)
    unfold finish
    split
    · exact ⟨⟨h.held, hf, (fun hm => by cases hm), h.old⟩, id⟩
    · exact ⟨⟨h.held, hf, h.perm, h.old⟩, id⟩

theorem dead_run {s s' : St} {es : List Ev} {o : Nat} (h : Dead s o) (hs : run D s es = some s') (hf : Ev.freeze ∉ es) : Dead s' o ∧ (o ∉ s.heap → o ∉ s'.heap) := by
  induction es generalizing s with
  | nil => cases hs; exact ⟨h, id⟩
  | cons e es ih =>
    simp only [run] at hs
    split at hs
    · rename_i t ht
      have h1 := dead_step h ht (fun he => hf (by simp [he]))
      have h2 := ih h1.1 hs (fun hm => hf (by simp [hm]))
      exact ⟨h2.1, fun hh => h2.2 (h1.2 hh)⟩
    · cases hs

/-- A step other than `finish g`, `resume g` keeps the counter of `g`. -/
theorem runs_step {s s' : St} {e : Ev} {g : Nat} {r : Run} (hr : s.runs[g]? = some (some r)) (hs : step D s e = some s') (h1 : e ≠ .finish g) (h2 : e ≠ .resume g) :
    ∃ r', s'.runs[g]? = some (some r') ∧ r'.iter = r.iter := by
  have other : ∀ {k : Nat} {x : Option Run}, k ≠ g → (s.runs.set k x)[g]? = some (some r) := by
    intro k x hk
    rw [List.getElem?_set_ne hk]
    exact hr
  cases e with
  | alloc => cases hs; exact ⟨r, hr, rfl⟩
  | drop o => cases hs; exact ⟨r, hr, rfl⟩
  | auto o =>
    simp only [step] at hs
    split at hs <;> cases hs
    exact ⟨r, hr, rfl⟩
  | freeze => cases hs; exact ⟨r, hr, rfl⟩
  | unfreeze => cases hs; exact ⟨r, hr, rfl⟩
  | init => cases hs; exact ⟨r, hr, rfl⟩
  | start k =>
    simp only [step] at hs
    split at hs <;> cases hs
    rename_i hk
    have hne : k ≠ g := by
      rintro rfl
      rw [hr] at hk
      simp at hk
    unfold start
    split
    · exact ⟨r, hr, rfl⟩
    · refine ⟨r, ?_, rfl⟩
      dsimp only
      split <;> exact other hne
  | deliver k o =>
    simp only [step] at hs
    split at hs
    · rename_i i l hk
      split at hs <;> cases hs
      by_cases hne : k = g
      · subst hne
        rw [hr] at hk
        cases hk
        exact ⟨⟨i, [o], true⟩, by dsimp only; rw [List.getElem?_set_self]; exact (List.getElem?_eq_some_iff.1 hr).1, rfl⟩
      · exact ⟨r, other hne, rfl⟩
    · cases hs
  | resume k =>
    have hne : k ≠ g := fun hk => h2 (by rw [hk])
    simp only [step] at hs
    split at hs <;> cases hs
    unfold resume
    split
    · exact ⟨r, other hne, rfl⟩
    · exact ⟨r, other hne, rfl⟩
  | finish k =>
    have hne : k ≠ g := fun hk => h1 (by rw [hk])
    simp only [step] at hs
    split at hs <;> cases hs
    unfold finish
    refine ⟨r, ?_, rfl⟩
    split <;> exact other hne

theorem collected_run {s s' : St} {es : List Ev} {g o : Nat} {r : Run} (hd : Dead s o) (hr : s.runs[g]? = some (some r)) (hs : run D s es = some s')
    (hf : Ev.freeze ∉ es) (hfin : Ev.finish g ∉ es) (hc : max (D g).every 1 ≤ r.iter + samples g es) (hlt : r.iter < max (D g).every 1) : o ∉ s'.heap := by
  induction es generalizing s r with
  | nil => simp [samples] at hc; omega
  | cons e es ih =>
    simp only [run] at hs
    split at hs
    · rename_i t ht
      have h1 := dead_step hd ht (fun he => hf (by simp [he]))
      by_cases he : e = .resume g
      · subst he
        have hc' : samples g (.resume g :: es) = samples g es + 1 := by simp [samples]
        simp only [step] at ht
        split at ht <;> cases ht
        rename_i i l hg
        rw [hr] at hg
        cases hg
        by_cases hn : (D g).every ≤ i + 1
        · refine (dead_run h1.1 hs (fun hm => hf (by simp [hm]))).2 ?_
          unfold resume
          rw [if_pos hn]
          have hd' : Dead { s with runs := s.runs.set g (some ⟨0, l, false⟩) } o := by
            refine ⟨hd.held, ?_, hd.perm, hd.old⟩
            show o ∉ Gc.frames (s.runs.set g (some ⟨0, l, false⟩))
            rw [frames_set_same hr]
            exact hd.frames
          exact hd'.collected
        · have e1 : resume (D g) g ⟨i, l, true⟩ s = { s with runs := s.runs.set g (some ⟨i + 1, l, false⟩) } := by
            unfold resume
            rw [if_neg hn]
          rw [e1] at h1 hs
          refine ih (r := ⟨i + 1, l, false⟩) h1.1 ?_ hs (fun hm => hf (by simp [hm])) (fun hm => hfin (by simp [hm])) ?_ ?_
          · dsimp only
            rw [List.getElem?_set_self]
            exact (List.getElem?_eq_some_iff.1 hr).1
          · rw [hc'] at hc; dsimp only at hc ⊢; omega
          · dsimp only; omega
      · obtain ⟨r', h2, h3⟩ := runs_step hr ht (fun hh => hfin (by simp [hh])) he
        have hc' : samples g (e :: es) = samples g es := by
          simp only [samples]
          exact List.count_cons_of_ne he
        refine ih h1.1 h2 hs (fun hm => hf (by simp [hm])) (fun hm => hfin (by simp [hm])) ?_ ?_
        · rw [h3]; rw [hc'] at hc; exact hc
        · rw [h3]; exact hlt
    · cases hs

/-! ## The property -/

/-- **C121, safety.** In every history, nothing that is referred to, or frozen, is freed. -/
theorem C121_safe {m : Nat} {w : Bool} {es : List Ev} {s : St} (h : run D (St.new m w) es = some s) (o : Nat) (ho : ¬ Garbage s o ∨ o ∈ s.perm) : o ∈ s.heap := by
  have hw := wf_run (wf_new m w) h
  rcases ho with ho | ho
  · by_cases h1 : o ∈ s.held
    · exact hw.held o h1
    · by_cases h2 : o ∈ frames s.runs
      · exact hw.frames o h2
      · exact absurd ⟨h1, h2⟩ ho
  · exact hw.perm o ho

/-- **C121, garbage is freed.** What nothing refers to at some point of a pass (and is not frozen) is no longer in memory when `max every_n_iter 1` more samples of the pass have been asked for - whatever else happens in the process, with any number of other
datasets, their passes and collections (but no `gc.freeze()` by the user in the meantime). -/
theorem C121_collected {m : Nat} {w : Bool} {pre es : List Ev} {s s' : St} {g o : Nat} (h : run D (St.new m w) pre = some s) (hg : Running s g)
    (ho : o ∈ s.heap) (hgar : Garbage s o) (hp : o ∉ s.perm) (hs : run D s es = some s') (hf : Ev.freeze ∉ es) (hfin : Ev.finish g ∉ es)
    (hc : max (D g).every 1 ≤ samples g es) : o ∉ s'.heap := by
  have hw := wf_run (wf_new m w) h
  have hcnt := counts_run (counts_new m w) h
  obtain ⟨r, hr⟩ := hg
  exact collected_run ⟨hgar.1, hgar.2, hp, hw.bound o ho⟩ hr hs hf hfin (by omega) (hcnt g r hr)

/-! ### The permanent generation -/

/-- Frozen objects only while a freezing dataset is in a pass. -/
def Frozen (D : Nat → Ds) (s : St) : Prop := s.perm ≠ [] → ∃ g, (D g).freeze = true ∧ Running s g

theorem running_set {s : St} {g : Nat} {r : Run} (k : Nat) (x : Run) (h : s.runs[g]? = some (some r)) : ∃ r', (s.runs.set k (some x))[g]? = some (some r') := by
  by_cases hk : k = g
  · subst hk
    exact ⟨x, List.getElem?_set_self (List.getElem?_eq_some_iff.1 h).1⟩
  · exact ⟨r, by rw [List.getElem?_set_ne hk]; exact h⟩

theorem frozen_step {s s' : St} {e : Ev} (h : Frozen D s) (hs : step D s e = some s') (he : e ≠ .freeze) : Frozen D s' := by
  cases e with
  | alloc => cases hs; exact h
  | drop o => cases hs; exact h
  | auto o =>
    simp only [step] at hs
    split at hs <;> cases hs
    exact h
  | freeze => exact absurd rfl he
  | unfreeze => cases hs; exact fun hp => absurd rfl hp
  | init => cases hs; exact h
  | start g =>
    simp only [step] at hs
    split at hs <;> cases hs
    rename_i hg
    unfold start
    split
    · exact h
    · have hl : g < s.runs.length := (List.getElem?_eq_some_iff.1 hg).1
      cases hf : (D g).freeze with
      | true =>
        intro _
        exact ⟨g, hf, ⟨0, [], false⟩, List.getElem?_set_self hl⟩
      | false =>
        intro hp
        obtain ⟨k, hk, r, hr⟩ := h hp
        exact ⟨k, hk, running_set g _ hr⟩
  | deliver g o =>
    simp only [step] at hs
    split at hs
    · split at hs <;> cases hs
      intro hp
      obtain ⟨k, hk, r, hr⟩ := h hp
      exact ⟨k, hk, running_set g _ hr⟩
    · cases hs
  | resume g =>
    simp only [step] at hs
    split at hs <;> cases hs
    unfold resume
    split
    · intro hp
      obtain ⟨k, hk, r, hr⟩ := h hp
      exact ⟨k, hk, running_set g _ hr⟩
    · intro hp
      obtain ⟨k, hk, r, hr⟩ := h hp
      exact ⟨k, hk, running_set g _ hr⟩
  | finish g =>
    simp only [step] at hs
    split at hs <;> cases hs
    unfold finish
    cases hf : (D g).freeze with
    | true => exact fun hp => absurd rfl hp
    | false =>
      intro hp
      obtain ⟨k, hk, r, hr⟩ := h hp
      have hne : g ≠ k := by
        rintro rfl
        rw [hf] at hk
        cases hk
      refine ⟨k, hk, r, ?_⟩
      show (s.runs.set g none)[k]? = _
      rw [List.getElem?_set_ne hne]
      exact hr

/-- **C121, nothing stays frozen.** When no freezing dataset is in a pass, nothing is frozen - however the passes ended (unless the user freezes objects). -/
theorem C121_unfrozen {m : Nat} {w : Bool} {es : List Ev} {s : St} (h : run D (St.new m w) es = some s) (hf : Ev.freeze ∉ es)
    (hr : ∀ g, (D g).freeze = true → ¬ Running s g) : s.perm = [] := by
  have key : ∀ (es : List Ev) (t : St), Frozen D t → run D t es = some s → Ev.freeze ∉ es → Frozen D s := by
    intro es
    induction es with
    | nil => intro t ht h _; cases h; exact ht
    | cons e es ih =>
      intro t ht h hf
      simp only [run] at h
      split at h
      · rename_i u hu
        exact ih u (frozen_step ht hu (fun he => hf (by simp [he]))) h (fun hm => hf (by simp [hm]))
      · cases h
  have h1 := key es _ (fun hp => absurd rfl hp) h hf
  by_contra hp
  obtain ⟨g, hg, hrun⟩ := h1 hp
  exact hr g hg hrun

theorem perm_keep {s s' : St} {e : Ev} {g o : Nat} (hw : Wf s) (honly : ∀ k, (D k).freeze = true → k = g) (hg : Running s g) (ho : o ∈ s.perm) (hs : step D s e = some s')
    (h1 : e ≠ .unfreeze) (h2 : e ≠ .finish g) : o ∈ s'.perm := by
  obtain ⟨r, hr⟩ := hg
  cases e with
  | alloc => cases hs; exact ho
  | drop p => cases hs; exact ho
  | auto p =>
    simp only [step] at hs
    split at hs <;> cases hs
    exact ho
  | freeze => cases hs; exact hw.perm o ho
  | unfreeze => exact absurd rfl h1
  | init => cases hs; exact ho
  | start k =>
    simp only [step] at hs
    split at hs <;> cases hs
    rename_i hk
    unfold start
    split
    · exact ho
    · cases hf : (D k).freeze with
      | true =>
        rw [honly k hf, hr] at hk
        simp at hk
      | false => exact ho
  | deliver k p =>
    simp only [step] at hs
    split at hs
    · split at hs <;> cases hs
      exact ho
    · cases hs
  | resume k =>
    simp only [step] at hs
    split at hs <;> cases hs
    unfold resume
    split <;> exact ho
  | finish k =>
    have hne : k ≠ g := fun hk => h2 (by rw [hk])
    simp only [step] at hs
    split at hs <;> cases hs
    unfold finish
    cases hf : (D k).freeze with
    | true => exact absurd (honly k hf) hne
    | false => exact ho

/-- **C121, frozen while the pass runs.** If `g` is the only freezing dataset, everything that is in memory when its pass has started stays frozen (and in memory, even if nothing refers to it) until the pass ends - or the user unfreezes.
Missing: several freezing datasets (false: `C121_violated_unfreeze`). -/
theorem C121_frozen_partial {m : Nat} {w : Bool} {pre es : List Ev} {s t s' : St} {g o : Nat} (honly : ∀ k, (D k).freeze = true → k = g) (hfr : (D g).freeze = true) (h : run D (St.new m w) pre = some s)
    (hst : step D s (.start g) = some t) (hg : Running t g) (ho : o ∈ t.heap) (hs : run D t es = some s') (hu : Ev.unfreeze ∉ es) (hfin : Ev.finish g ∉ es) : o ∈ s'.perm ∧ o ∈ s'.heap := by
  have hw := wf_step (wf_run (wf_new m w) h) hst
  have hp : o ∈ t.perm := by
    simp only [step] at hst
    split at hst <;> cases hst
    rename_i hnone
    revert ho hg
    unfold start
    split
    · rintro ⟨r, hr⟩
      rw [hnone] at hr
      simp at hr
    · simp only [hfr, if_true]
      exact fun _ ho => ho
  have key : ∀ (es : List Ev) (t : St), Wf t → Running t g → o ∈ t.perm → run D t es = some s' → Ev.unfreeze ∉ es → Ev.finish g ∉ es → o ∈ s'.perm ∧ o ∈ s'.heap := by
    intro es
    induction es with
    | nil => intro t hw _ hp h _ _; cases h; exact ⟨hp, hw.perm o hp⟩
    | cons e es ih =>
      intro t hw hg hp h hu hfin
      simp only [run] at h
      split at h
      · rename_i u hue
        refine ih u (wf_step hw hue) ?_ (perm_keep hw honly hg hp hue (fun he => hu (by simp [he])) (fun he => hfin (by simp [he]))) h (fun hm => hu (by simp [hm])) (fun hm => hfin (by simp [hm]))
        obtain ⟨r, hr⟩ := hg
        by_cases he : e = .resume g
        · subst he
          simp only [step] at hue
          split at hue <;> cases hue
          unfold resume
          split
          · exact running_set g _ hr
          · exact running_set g _ hr
        · obtain ⟨r', h2, _⟩ := runs_step hr hue (fun he => hfin (by simp [he])) he
          exact ⟨r', h2⟩
      · cases h
  exact key es t hw hg hp hs hu hfin

/-! ### How much memory is needed -/

/-- At most `a` objects are created before the first `resume g` (`b` for the first), and between two of them. -/
def Paced (g a : Nat) : Nat → List Ev → Prop
  | _, [] => True
  | 0, .alloc :: _ => False
  | b + 1, .alloc :: es => Paced g a b es
  | b, e :: es => Paced g a (if e = .resume g then a else b) es

theorem paced_cons {g a b : Nat} {e : Ev} {es : List Ev} (h : Paced g a b (e :: es)) (he : e ≠ .alloc) : Paced g a (if e = .resume g then a else b) es := by
  cases e <;> cases b <;> first | exact absurd rfl he | exact h

/-- At most `W` objects are referred to, after each event. -/
def Window (D : Nat → Ds) (W : Nat) (s : St) (es : List Ev) : Prop := ∀ p t, p <+: es → run D s p = some t → t.held.length + (frames t.runs).length ≤ W

theorem window_cons {W : Nat} {s t : St} {e : Ev} {es : List Ev} (h : Window D W s (e :: es)) (ht : step D s e = some t) : Window D W t es := by
  intro p u hp hu
  refine h (e :: p) u (List.prefix_cons_inj e |>.2 hp) ?_
  simp only [run, ht]
  exact hu

/-- A collection leaves what is referred to. -/
theorem collect_length {s : St} (h : Wf s) (hp : s.perm = []) : (collect s).heap.length ≤ s.held.length + (frames s.runs).length := by
  have h1 : (collect s).heap ⊆ s.held ++ frames s.runs := by
    intro o ho
    rcases (mem_collect.1 ho).2 with h2 | h2 | h2
    · exact List.mem_append_left _ h2
    · exact List.mem_append_right _ h2
    · rw [hp] at h2; cases h2
  have h2 := (List.subperm_of_subset (wf_collect h).nodup h1).length_le
  rwa [List.length_append] at h2

/-- What events other than creating objects, and `resume`, do to the number of objects. -/
theorem length_step {s s' : St} {e : Ev} (hs : step D s e = some s') (ha : e ≠ .alloc) : s'.heap.length ≤ s.heap.length := by
  have hcol : ∀ t : St, (collect t).heap.length ≤ t.heap.length := fun t => List.length_filter_le _ _
  cases e with
  | alloc => exact absurd rfl ha
  | drop o => cases hs; exact le_refl _
  | auto o =>
    simp only [step] at hs
    split at hs <;> cases hs
    exact List.length_filter_le _ _
  | freeze => cases hs; exact le_refl _
  | unfreeze => cases hs; exact le_refl _
  | init => cases hs; exact le_refl _
  | start g =>
    simp only [step] at hs
    split at hs <;> cases hs
    unfold start
    split
    · exact le_refl _
    · dsimp only
      split
      · exact hcol _
      · exact le_refl _
  | deliver g o =>
    simp only [step] at hs
    split at hs
    · split at hs <;> cases hs
      exact le_refl _
    · cases hs
  | resume g =>
    simp only [step] at hs
    split at hs <;> cases hs
    unfold resume
    split
    · exact hcol _
    · exact le_refl _
  | finish g =>
    simp only [step] at hs
    split at hs <;> cases hs
    unfold finish
    split <;> exact le_refl _

theorem perm_step {s s' : St} {e : Ev} (h : s.perm = []) (hD : ∀ g, (D g).freeze = false) (hs : step D s e = some s') (he : e ≠ .freeze) : s'.perm = [] := by
  by_contra hp
  have h1 : Frozen D s := fun hn => absurd h hn
  obtain ⟨g, hg, _⟩ := frozen_step h1 hs he hp
  rw [hD g] at hg
  cases hg

theorem memory_run {s s' : St} {es : List Ev} {g a b W B : Nat} {r : Run} (hD : ∀ g, (D g).freeze = false) (hw : Wf s) (hp : s.perm = [])
    (hr : s.runs[g]? = some (some r)) (hlt : r.iter < max (D g).every 1) (hs : run D s es = some s') (hf : Ev.freeze ∉ es) (hfin : Ev.finish g ∉ es)
    (hpace : Paced g a b es) (hwin : Window D W s es) (hba : b ≤ a) (hWB : W ≤ B) (hlen : s.heap.length + b ≤ B + a * (r.iter + 1)) :
    s'.heap.length ≤ B + a * max (D g).every 1 := by
  induction es generalizing s r b with
  | nil =>
    cases hs
    have : a * (r.iter + 1) ≤ a * max (D g).every 1 := Nat.mul_le_mul_left _ hlt
    omega
  | cons e es ih =>
    simp only [run] at hs
    split at hs
    · rename_i t ht
      have hwt := wf_step hw ht
      have hpt := perm_step hp hD ht (fun he => hf (by simp [he]))
      have hf' : Ev.freeze ∉ es := fun hm => hf (by simp [hm])
      have hfin' : Ev.finish g ∉ es := fun hm => hfin (by simp [hm])
      have hwin' := window_cons hwin ht
      by_cases ha : e = .alloc
      · subst ha
        cases b with
        | zero => exact absurd hpace id
        | succ b =>
          obtain ⟨r', h2, h3⟩ := runs_step hr ht (by simp) (by simp)
          cases ht
          refine ih hwt hpt h2 (by rw [h3]; exact hlt) hs hf' hfin' hpace hwin' (by omega) ?_
          rw [h3, List.length_cons]
          omega
      · have hl := length_step ht ha
        have hpc := paced_cons hpace ha
        by_cases he : e = .resume g
        · subst he
          rw [if_pos rfl] at hpc
          have hw1 := hwin [.resume g] t (by simp) (by simp only [run, ht])
          have ht' := ht
          simp only [step] at ht
          split at ht <;> cases ht
          rename_i i l hg
          rw [hr] at hg
          cases hg
          have hlg : g < s.runs.length := (List.getElem?_eq_some_iff.1 hr).1
          by_cases hn : (D g).every ≤ i + 1
          · have e1 : resume (D g) g ⟨i, l, true⟩ s = collect { s with runs := s.runs.set g (some ⟨0, l, false⟩) } := by
              unfold resume
              rw [if_pos hn]
            rw [e1] at hs hwt hpt hwin' hw1 hl
            refine ih (r := ⟨0, l, false⟩) hwt hpt ?_ ?_ hs hf' hfin' hpc hwin' (le_refl _) ?_
            · exact List.getElem?_set_self hlg
            · show 0 < _; omega
            · have hwr : Wf { s with runs := s.runs.set g (some ⟨0, l, false⟩) } := by
                refine ⟨hw.nodup, hw.bound, hw.held, ?_, hw.perm⟩
                show ∀ o ∈ Gc.frames (s.runs.set g (some ⟨0, l, false⟩)), o ∈ s.heap
                rw [frames_set_same hr]
                exact hw.frames
              have h4 := collect_length hwr hp
              have h5 : (collect { s with runs := s.runs.set g (some ⟨0, l, false⟩) }).heap.length ≤ W := le_trans h4 hw1
              show _ ≤ B + a * (0 + 1)
              omega
          · have e1 : resume (D g) g ⟨i, l, true⟩ s = { s with runs := s.runs.set g (some ⟨i + 1, l, false⟩) } := by
              unfold resume
              rw [if_neg hn]
            rw [e1] at hs hwt hpt hwin' hw1 hl
            refine ih (r := ⟨i + 1, l, false⟩) hwt hpt ?_ ?_ hs hf' hfin' hpc hwin' (le_refl _) ?_
            · exact List.getElem?_set_self hlg
            · show i + 1 < _; omega
            · show s.heap.length + a ≤ B + a * (i + 1 + 1)
              have : a * (i + 1 + 1) = a * (i + 1) + a := by ring
              dsimp only at hlen
              omega
        · rw [if_neg he] at hpc
          obtain ⟨r', h2, h3⟩ := runs_step hr ht (fun hh => hfin (by simp [hh])) he
          refine ih hwt hpt h2 (by rw [h3]; exact hlt) hs hf' hfin' hpc hwin' hba ?_
          rw [h3]
          omega
    · cases hs

/-- **C121, memory.** Without freezing: if a pass of dataset `g` creates at most `a` objects for a sample, and at most `W` objects are referred to at any time, then never more than `max W M + a * max every_n_iter 1` objects are in memory, `M` the number of them at the
beginning of the pass - however long the pass is. -/
theorem C121_memory_partial {m : Nat} {w : Bool} {pre es : List Ev} {s s' : St} {g a W : Nat} (hD : ∀ g, (D g).freeze = false) (h : run D (St.new m w) pre = some s)
    (hpre : Ev.freeze ∉ pre) (hg : Running s g) (hs : run D s es = some s') (hf : Ev.freeze ∉ es) (hfin : Ev.finish g ∉ es) (hpace : Paced g a a es) (hwin : Window D W s es) :
    s'.heap.length ≤ max W s.heap.length + a * max (D g).every 1 := by
  have hw := wf_run (wf_new m w) h
  have hcnt := counts_run (counts_new m w) h
  have hp : s.perm = [] := C121_unfrozen h hpre (fun k hk => by rw [hD k] at hk; cases hk)
  obtain ⟨r, hr⟩ := hg
  refine memory_run (r := r) (b := a) (B := max W s.heap.length) hD hw hp hr (hcnt g r hr) hs hf hfin hpace hwin (le_refl _) (le_max_left _ _) ?_
  have : a * 1 ≤ a * (r.iter + 1) := Nat.mul_le_mul_left _ (by omega)
  have := le_max_right W s.heap.length
  omega

/-! ### Workers -/

/-- **C121, workers.** In a worker process nothing is delivered by a `GcDataset` before `gc_init_worker`. -/
theorem C121_worker {m : Nat} {es : List Ev} {s : St} (h : run D (St.new m true) es = some s) (hi : Ev.init ∉ es) (g o : Nat) : Ev.deliver g o ∉ es ∧ ¬ Running s g := by
  have key : ∀ (es : List Ev) (t : St), t.worker = true → t.init = false → (∀ g, ¬ Running t g) → run D t es = some s → Ev.init ∉ es → Ev.deliver g o ∉ es ∧ ¬ Running s g := by
    intro es
    induction es with
    | nil => intro t _ _ hr h _; cases h; exact ⟨by simp, hr g⟩
    | cons e es ih =>
      intro t h1 h2 hr h hi
      simp only [run] at h
      split at h
      · rename_i u hu
        have hi' : Ev.init ∉ es := fun hm => hi (by simp [hm])
        have no : ∀ {k : Nat} {r : Run}, t.runs[k]? = some (some r) → False := fun hk => hr _ ⟨_, hk⟩
        have fin : u.worker = true → u.init = false → (∀ g, ¬ Running u g) → e ≠ .deliver g o → Ev.deliver g o ∉ e :: es ∧ ¬ Running s g := by
          intro a1 a2 a3 a4
          have := ih u a1 a2 a3 h hi'
          exact ⟨fun hm => by rcases List.mem_cons.1 hm with hm | hm; exacts [a4 hm.symm, this.1 hm], this.2⟩
        cases e with
        | alloc => cases hu; exact fin h1 h2 hr (by simp)
        | drop p => cases hu; exact fin h1 h2 hr (by simp)
        | auto p =>
          simp only [step] at hu
          split at hu <;> cases hu
          exact fin h1 h2 hr (by simp)
        | freeze => cases hu; exact fin h1 h2 hr (by simp)
        | unfreeze => cases hu; exact fin h1 h2 hr (by simp)
        | init => exact absurd (by simp) hi
        | start k =>
          simp only [step] at hu
          split at hu <;> cases hu
          have e1 : start (D k) k t = t := by simp [start, h1, h2]
          rw [e1] at fin
          exact fin h1 h2 hr (by simp)
        | deliver k p =>
          simp only [step] at hu
          split at hu
          · rename_i hk; exact (no hk).elim
          · cases hu
        | resume k =>
          simp only [step] at hu
          split at hu
          · rename_i hk; exact (no hk).elim
          · cases hu
        | finish k =>
          simp only [step] at hu
          split at hu
          · rename_i hk; exact (no hk).elim
          · cases hu
      · cases h
  refine key es _ rfl rfl ?_ h hi
  rintro k ⟨r, hr⟩
  simp only [St.new, List.getElem?_replicate] at hr
  split at hr <;> cases hr

/-! ### Where the property does not hold -/

/-- One pass with one sample, which is dropped at once -/
def shortPass (o : Nat) : List Ev := [.start 0, .alloc, .deliver 0 o, .drop o, .resume 0, .finish 0]

/-- `n` of these passes -/
def shortPasses : Nat → List Ev
  | 0 => []
  | n + 1 => shortPasses n ++ shortPass n

/-- The state after `n` passes -/
def afterPasses (n : Nat) : St := ⟨(List.range n).reverse, [], [], n, [none], false, false⟩

theorem run_shortPasses (n : Nat) : run (fun _ => ⟨2, false⟩) (St.new 1 false) (shortPasses n) = some (afterPasses n) := by
  induction n with
  | zero => rfl
  | succ n ih =>
    rw [shortPasses, run_append, ih, Option.bind_some]
    simp [shortPass, run, step, start, resume, finish, afterPasses, List.range_succ]

/-- **C121 is violated** by passes shorter than `every_n_iter`: the count starts at 0 in each pass, so nothing is ever collected. After `n` passes with one sample each, all `n` samples are in memory, although nothing refers to them. -/
theorem C121_violated_passes (n : Nat) : ∃ s, run (fun _ => ⟨2, false⟩) (St.new 1 false) (shortPasses n) = some s ∧ s.heap.length = n ∧ s.held = [] ∧ samples 0 (shortPasses n) = n := by
  refine ⟨afterPasses n, run_shortPasses n, by simp [afterPasses], rfl, ?_⟩
  induction n with
  | zero => rfl
  | succ n ih =>
    rw [shortPasses]
    simp only [samples, List.count_append] at ih ⊢
    rw [ih]
    simp [shortPass]

/-- **C121 is violated** by more than one freezing dataset in a process (a training and a validation loader without workers): the end of one pass unfreezes the objects of the other, which is still running - and what the user has frozen. -/
theorem C121_violated_unfreeze : ∃ s, run (fun _ => ⟨1, true⟩) (St.new 2 false) [.alloc, .start 0, .start 1, .finish 1] = some s ∧ Running s 0 ∧ s.heap = [0] ∧ s.perm = [] :=
  ⟨_, rfl, ⟨_, rfl⟩, rfl, rfl⟩

theorem C121_violated_user : ∃ s, run (fun _ => ⟨1, true⟩) (St.new 1 false) [.alloc, .freeze, .start 0, .finish 0] = some s ∧ s.heap = [0] ∧ s.perm = [] :=
  ⟨_, rfl, rfl, rfl⟩

/-! ## Examples -/

/-- Two datasets: one collects after each sample, one after every three. -/
def exD : Nat → Ds := fun g => if g = 0 then ⟨1, false⟩ else ⟨3, true⟩

/-- A pass of dataset 0 in which the first sample is dropped while the second is loaded. -/
example : ∃ s s', run exD (St.new 2 false) [.start 0, .alloc, .deliver 0 0, .resume 0, .alloc, .deliver 0 1, .drop 0] = some s ∧ Running s 0 ∧ 0 ∈ s.heap ∧ Garbage s 0 ∧ 0 ∉ s.perm
    ∧ run exD s [.start 1, .resume 0, .alloc] = some s' ∧ s'.heap = [2, 1] :=
  ⟨_, _, rfl, ⟨_, rfl⟩, by decide, ⟨by decide, by decide⟩, by decide, rfl, rfl⟩

/-- Paced with one object for each sample, no more than two are referred to. -/
example : Paced 0 1 1 [.alloc, .deliver 0 0, .resume 0, .alloc, .deliver 0 1, .drop 0, .resume 0] := by simp [Paced]

theorem exWindow : Window (fun _ => ⟨2, false⟩) 3 ⟨[], [], [], 0, [some ⟨0, [], false⟩], false, false⟩ [.alloc, .deliver 0 0, .drop 0, .resume 0] := by
  intro p t hp ht
  have h1 : p ∈ List.inits [Ev.alloc, .deliver 0 0, .drop 0, .resume 0] := (List.mem_inits _ _).2 hp
  simp only [List.inits, List.map_cons, List.map_nil, List.mem_cons, List.not_mem_nil, or_false] at h1
  rcases h1 with rfl | rfl | rfl | rfl | rfl <;> cases ht <;> decide

/-- A freezing pass: the object 0 stays although nothing refers to it, until the pass ends. -/
example : run exD (St.new 2 false) [.alloc, .start 1, .drop 0, .start 0, .alloc, .deliver 0 1, .resume 0, .finish 0] = some ⟨[1, 0], [1], [0], 2, [none, some ⟨0, [], false⟩], false, false⟩ := rfl

/-- A worker that forgot `gc_init_worker`: the first `next` changes nothing (it raises). -/
example : run exD (St.new 2 true) [.start 1] = some (St.new 2 true) := rfl

end Verif.Gc
