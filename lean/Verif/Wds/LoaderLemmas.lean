import Verif.Stream.Lemmas
import Verif.Wds.LoaderModel

/-! Lemmas about `WebdatasetSampleLoaderDataset`. -/

namespace Verif.Wds

open Verif.Stream

variable {C ρ : Type} {R : WRng ρ} {c : Cfg C} {x x' : LdX C ρ} {a : Smp C}

/-- Everything referred to is a slice of this worker. -/
def Mem (c : Cfg C) (x : LdX C ρ) : Prop :=
  (∀ s ∈ x.pending, s ∈ c.shards) ∧ ∀ b ∈ x.active, ∀ s p, b = some (s, p) → s ∈ c.shards

theorem shuffle_perm {α : Type} (R : WRng ρ) (g : ρ) (l : List α) : (R.shuffle g l).1.Perm l := by
  refine ((R.perm_perm g l.length).filterMap (fun i => l[i]?)).trans (List.Perm.of_eq ?_)
  apply List.ext_getElem?
  intro i
  induction l generalizing i with
  | nil => simp
  | cons a l ih => 
    rw [List.length_cons, List.range_succ_eq_map]
    simp only [List.filterMap_cons, List.getElem?_cons_zero, List.filterMap_map, Function.comp_def, List.getElem?_cons_succ]
    cases i with
    | zero => simp
    | succ i => simpa using ih i

theorem mem_timesL {α : Type} {n : Nat} {l : List α} {a : α} (h : a ∈ timesL n l) : a ∈ l := by
  simp only [timesL, List.mem_flatten, List.mem_replicate] at h
  obtain ⟨_, ⟨_, rfl⟩, h⟩ := h
  exact h

theorem drawN_mem {k : Nat} {g : ρ} {s : Slice C} (h : s ∈ (drawN R c.shards k g).1) : s ∈ c.shards := by
  induction k generalizing g with
  | zero => simp [drawN] at h
  | succ k ih =>
    simp only [drawN, List.mem_append, Option.mem_toList] at h
    rcases h with h | h
    · exact List.mem_of_getElem? h
    · exact ih h

theorem shardsOnce_mem {g : ρ} {s : Slice C} (h : s ∈ (shardsOnce R c g).1) : s ∈ c.shards := by
  unfold shardsOnce at h
  cases hm : c.mode with
  | none => simpa [hm] using h
  | over n => 
    simp only [hm] at h
    exact mem_timesL ((shuffle_perm R g _).mem_iff.1 h)
  | replace =>
    simp only [hm] at h
    exact drawN_mem h

theorem mem_of_mem_dropLast' {α : Type} {a : α} {l : List α} (h : a ∈ l.dropLast) : a ∈ l := (List.dropLast_sublist l).subset h

theorem fill_mem {k : Nat} {o : List (Slice C)} :
    (∀ s ∈ (fill k o).2, s ∈ o) ∧ ∀ b ∈ (fill k o).1, ∀ s p, b = some (s, p) → s ∈ o := by
  induction k generalizing o with
  | zero => simp [fill]
  | succ k ih =>
    unfold fill
    cases h : o.getLast? with
    | none => 
      refine ⟨fun s hs => hs, fun b hb s p e => ?_⟩
      rw [List.eq_of_mem_replicate hb] at e
      cases e
    | some t =>
      refine ⟨fun s hs => mem_of_mem_dropLast' (ih.1 s hs), fun b hb s p e => ?_⟩
      rcases List.mem_cons.1 hb with hb | hb
      · rw [hb] at e
        cases e
        exact List.mem_of_getLast? h
      · exact mem_of_mem_dropLast' (ih.2 b hb s p e)

theorem Mem.newEpoch (x : LdX C ρ) : Mem c (newEpoch R c x) := by
  have h := @fill_mem C c.parallel (shardsOnce R c x.rng).1.reverse
  exact ⟨fun s hs => shardsOnce_mem (R := R) (g := x.rng) (List.mem_reverse.1 (h.1 s hs)),
    fun b hb s p e => shardsOnce_mem (R := R) (g := x.rng) (List.mem_reverse.1 (h.2 b hb s p e))⟩

theorem Mem.set (h : Mem c x) (i : Nat) (b : Active C) (hb : ∀ s p, b = some (s, p) → s ∈ c.shards) :
    ∀ b' ∈ x.active.set i b, ∀ s p, b' = some (s, p) → s ∈ c.shards := by
  intro b' hb'
  rcases List.mem_or_eq_of_mem_set hb' with h' | rfl
  · exact h.2 b' h'
  · exact hb

theorem Mem.exhausted (h : Mem c x) (i : Nat) (g : ρ) : Mem c (exhausted R c x i g) := by
  unfold Wds.exhausted
  cases hl : x.pending.getLast? with
  | some s =>
    refine ⟨fun t ht => h.1 t (mem_of_mem_dropLast' ht), h.set i _ ?_⟩
    intro t p e
    cases e
    exact h.1 _ (List.mem_of_getLast? hl)
  | none =>
    cases hm : c.mode with
    | none => exact ⟨h.1, h.set i _ (by intro _ _ e; cases e)⟩
    | over n => exact ⟨h.1, h.set i _ (by intro _ _ e; cases e)⟩
    | replace => 
      refine ⟨h.1, h.set i _ ?_⟩
      intro t p e
      obtain ⟨u, hu, e⟩ := Option.map_eq_some_iff.1 e
      cases e
      exact List.mem_of_getElem? hu

/-- The small steps. -/
inductive LStep (R : WRng ρ) (c : Cfg C) (x : LdX C ρ) : Stream.Step (LdX C ρ) (Smp C) → Prop where
  | empty : x.ctl = .fresh → c.shards = [] → LStep R c x (.stop x)
  | begin : x.ctl = .fresh → c.shards ≠ [] → LStep R c x (.skip { x with ctl := .top })
  | cont : x.ctl = .top → (x.active.any Option.isSome = true ∨ x.pending ≠ []) → LStep R c x (.skip { x with ctl := .pick })
  | epoch : x.ctl = .top → (x.active.any Option.isSome = false ∧ x.pending = []) → LStep R c x (.skip (newEpoch R c x))
  | done : x.ctl = .pick → (∀ b ∈ x.active, weight b = 0) → c.loop = false →
      LStep R c x (.stop { x with epoch := x.epoch + 1, epochCount := 0, ctl := .fresh })
  | again : x.ctl = .pick → (∀ b ∈ x.active, weight b = 0) → c.loop = true →
      LStep R c x (.skip { x with epoch := x.epoch + 1, epochCount := 0, ctl := .top })
  | item {i g s pos a} : x.ctl = .pick → (∃ b ∈ x.active, weight b ≠ 0) → pickIdx R c x = (i, g) →
      x.active[i]? = some (some (s, pos)) → s.samples[pos]? = some a →
      LStep R c x (.yield a { x with
            active := x.active.set i (some (s, pos + 1)), rng := g
            count := x.count + 1, epochCount := x.epochCount + 1 })
  | exh {i g s pos} : x.ctl = .pick → (∃ b ∈ x.active, weight b ≠ 0) → pickIdx R c x = (i, g) →
      x.active[i]? = some (some (s, pos)) → s.samples[pos]? = none → LStep R c x (.skip (exhausted R c x i g))
  | bad {i g} : x.ctl = .pick → (∃ b ∈ x.active, weight b ≠ 0) → pickIdx R c x = (i, g) →
      (∀ s pos, x.active[i]? ≠ some (some (s, pos))) → LStep R c x .raise

theorem lstep (R : WRng ρ) (c : Cfg C) (x : LdX C ρ) : LStep R c x (ldStep R c x) := by
  cases hc : x.ctl with
  | fresh =>
    cases hs : c.shards with
    | nil => simpa [ldStep, hc, hs] using LStep.empty (R := R) (x := x) hc hs
    | cons s l => 
      have := LStep.begin (R := R) (c := c) (x := x) hc (by simp [hs])
      simpa [ldStep, hc, hs] using this
  | top =>
    by_cases h : (x.active.any Option.isSome || !x.pending.isEmpty) = true
    · have := LStep.cont (R := R) (c := c) (x := x) hc (by simpa using h)
      simpa [ldStep, hc, h] using this
    · have := LStep.epoch (R := R) (c := c) (x := x) hc (by
        simp only [Bool.or_eq_true, not_or, Bool.not_eq_true, Bool.not_eq_false', List.isEmpty_iff] at h
        exact h)
      simp only [ldStep, hc]
      rw [if_neg h]
      exact this
  | pick =>
    by_cases hw : (x.active.map weight).all (· = 0) = true
    · have hw' : ∀ b ∈ x.active, weight b = 0 := by simpa using hw
      cases hl : c.loop with
      | false => 
        have := LStep.done (R := R) (c := c) (x := x) hc hw' hl
        simpa [ldStep, hc, hw, hl] using this
      | true => 
        have := LStep.again (R := R) (c := c) (x := x) hc hw' hl
        simpa [ldStep, hc, hw, hl] using this
    · have hw' : ∃ b ∈ x.active, weight b ≠ 0 := by simpa using hw
      obtain ⟨i, g, hi⟩ : ∃ i g, pickIdx R c x = (i, g) := ⟨_, _, rfl⟩
      have e : ldStep R c x = match x.active[i]? with
        | some (some (s, pos)) =>
          match s.samples[pos]? with
          | some a =>
            .yield a { x with
              active := x.active.set i (some (s, pos + 1)), rng := g
              count := x.count + 1, epochCount := x.epochCount + 1 }
          | none => .skip (exhausted R c x i g)
        | _ => .raise := by
        unfold ldStep
        simp only [hc, hw]
        rw [if_neg (by simp)]
        simp only [hi]
        rfl
      rw [e]
      split
      · rename_i s pos h
        cases hp : s.samples[pos]? with
        | some a => exact .item hc hw' hi h hp
        | none => exact .exh hc hw' hi h hp
      · rename_i h
        exact .bad hc hw' hi h

theorem Mem.step (h : Mem c x) {st} (hs : LStep R c x st) :
    (∀ a x', st = .yield a x' → Mem c x' ∧ x'.ctl = .pick ∧ x'.active.any Option.isSome = true ∧ c.shards ≠ []) ∧
    (∀ x', st = .skip x' → Mem c x') ∧ (∀ x', st = .stop x' → Mem c x' ∧ x'.ctl = .fresh) := by
  cases hs with
  | empty h1 h2 => exact ⟨by simp, by simp, by rintro _ ⟨⟩; exact ⟨h, h1⟩⟩
  | begin => exact ⟨by simp, by rintro _ ⟨⟩; exact h, by simp⟩
  | cont => exact ⟨by simp, by rintro _ ⟨⟩; exact h, by simp⟩
  | epoch => exact ⟨by simp, by rintro _ ⟨⟩; exact Mem.newEpoch x, by simp⟩
  | done => exact ⟨by simp, by simp, by rintro _ ⟨⟩; exact ⟨h, rfl⟩⟩
  | again => exact ⟨by simp, by rintro _ ⟨⟩; exact h, by simp⟩
  | @item i g s pos a h1 _ _ h4 _ =>
    refine ⟨?_, by simp, by simp⟩
    rintro _ _ ⟨⟩
    have hi : i < x.active.length := by
      rcases Nat.lt_or_ge i x.active.length with hi | hi
      · exact hi
      · rw [List.getElem?_eq_none hi] at h4
        cases h4
    have hs := h.2 _ (List.mem_of_getElem? h4) _ _ rfl
    refine ⟨⟨h.1, h.set i _ ?_⟩, h1, ?_, List.ne_nil_of_mem hs⟩
    · intro t p e
      cases e
      exact hs
    · exact List.any_eq_true.2 ⟨_, List.mem_set hi _, rfl⟩
  | exh => exact ⟨by simp, by rintro _ ⟨⟩; exact h.exhausted _ _, by simp⟩
  | bad => exact ⟨by simp, by simp, by simp⟩

/-- What is known of a state in which user code has control. -/
def AtRest (c : Cfg C) (x : LdX C ρ) : Prop :=
  Mem c x ∧ (x.ctl = .fresh ∨ x.ctl = .pick ∧ x.active.any Option.isSome = true ∧ c.shards ≠ [])

theorem Mem.obs (h : Mem c x) {o} (ho : Obs (ldStep R c) x o) :
    (∀ a x', o = .item a x' → AtRest c x' ∧ ∃ (i : Nat) (s : Slice C) (p : Nat), x'.active[i]? = some (some (s, p + 1)) ∧ s.samples[p]? = some a) ∧
      (∀ x', o = .fin x' → AtRest c x' ∧ x'.ctl = .fresh) := by
  induction ho with
  | @item s b s' he =>
    refine ⟨?_, by simp⟩
    rintro _ _ ⟨⟩
    have hs := lstep R c s
    obtain ⟨h1, h2, h3, h4⟩ := (h.step hs).1 _ _ he
    refine ⟨⟨h1, .inr ⟨h2, h3, h4⟩⟩, ?_⟩
    rw [he] at hs
    generalize hst : Stream.Step.yield b s' = st at hs
    cases hs <;> cases hst
    rename_i i g s pos ha _ _ _ hp
    refine ⟨i, s, pos, ?_, hp⟩
    simp only [List.getElem?_set]
    rw [if_pos trivial, if_pos (List.getElem?_eq_some_iff.1 ‹_›).1]
  | @fin s s' he =>
    refine ⟨by simp, ?_⟩
    rintro _ ⟨⟩
    have hs := lstep R c s
    obtain ⟨h1, h2⟩ := (h.step hs).2.2 _ he
    exact ⟨⟨h1, .inl h2⟩, h2⟩
  | err => exact ⟨by simp, by simp⟩
  | @skip s s' o he _ ih => exact ih ((h.step (lstep R c s)).2.1 _ he)

theorem findSlice_id (hd : (c.shards.map (·.id)).Nodup) {s : Slice C} (hs : s ∈ c.shards) : findSlice c.shards s.id = some s := by
  unfold findSlice
  have : c.shards.filter (fun t => t.id = s.id) = [s] := by
    generalize c.shards = l at hd hs
    induction l with
    | nil => cases hs
    | cons t l ih =>
      simp only [List.map_cons, List.nodup_cons] at hd
      rcases List.mem_cons.1 hs with rfl | hs'
      · rw [List.filter_cons_of_pos (by simp), List.filter_eq_nil_iff.2]
        intro t ht
        simp only [decide_eq_true_eq]
        intro e
        exact hd.1 (List.mem_map.2 ⟨t, ht, e⟩)
      · rw [List.filter_cons_of_neg, ih hd.2 hs']
        simp only [decide_eq_true_eq]
        intro e
        exact hd.1 (List.mem_map.2 ⟨s, hs', e.symm⟩)
  rw [this]
  rfl

theorem resume_save (hd : (c.shards.map (·.id)).Nodup) (h : Mem c x) : ldResume c (ldSave x) = { x with ctl := .fresh } := by
  have h1 : (x.pending.map (·.id)).filterMap (findSlice c.shards) = x.pending := by
    rw [List.filterMap_map]
    have := h.1
    generalize x.pending = l at this
    induction l with
    | nil => rfl
    | cons t l ih =>
      rw [List.filterMap_cons_some (b := t)]
      · rw [ih (fun s hs => this s (List.mem_cons_of_mem _ hs))]
      · exact findSlice_id hd (this t (List.mem_cons_self ..))
  have h2 : ((x.active.map (Option.map fun a => (a.1.id, a.2))).map
      fun o => o.bind fun a => (findSlice c.shards a.1).map fun s => (s, a.2)) = x.active := by
    rw [List.map_map]
    conv => rhs; rw [← List.map_id x.active]
    apply List.map_congr_left
    intro b hb
    cases b with
    | none => rfl
    | some b =>
      obtain ⟨s, p⟩ := b
      simp [Function.comp, findSlice_id hd (h.2 _ hb s p rfl)]
  simp only [ldResume, ldSave, h1, h2]

end Verif.Wds
