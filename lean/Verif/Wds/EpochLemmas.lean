import Verif.Wds.LoaderLemmas
import Verif.Wds.LoaderSpec

/-! Lemmas about the epochs of `WebdatasetSampleLoaderDataset`. -/

namespace Verif.Wds

open Verif.Stream

variable {C ρ : Type} {R : WRng ρ} {c : Cfg C} {x x' : LdX C ρ} {a : Smp C}

theorem Rel.rfl' {l : List (Smp C)} : Rel c l l := ⟨.refl _, fun _ => rfl⟩
theorem Rel.trans {l l' l'' : List (Smp C)} (h : Rel c l l') (h' : Rel c l' l'') : Rel c l l'' :=
  ⟨h.1.trans h'.1, fun e => (h.2 e).trans (h'.2 e)⟩
theorem Rel.symm {l l' : List (Smp C)} (h : Rel c l l') : Rel c l' l := ⟨h.1.symm, fun e => (h.2 e).symm⟩
theorem Rel.nil {l : List (Smp C)} (h : Rel c l []) : l = [] := h.1.eq_nil
theorem Rel.append_left {l l' : List (Smp C)} (k : List (Smp C)) (h : Rel c l l') : Rel c (k ++ l) (k ++ l') :=
  ⟨h.1.append_left k, fun e => by rw [h.2 e]⟩

/-- What is left of an open slice -/
def rest : Active C → List (Smp C)
  | none => []
  | some a => a.1.samples.drop a.2

/-- What is left of the epoch -/
def rem (x : LdX C ρ) : List (Smp C) := x.active.flatMap rest ++ x.pending.reverse.flatMap (·.samples)

/-- No epoch is running. -/
def AtStart (x : LdX C ρ) : Prop := (∀ b ∈ x.active, b = none) ∧ x.pending = []

structure Inv (c : Cfg C) (x : LdX C ρ) : Prop where
  mem : Mem c x
  len : x.active.length = c.parallel
  pend : x.pending ≠ [] → ∀ b ∈ x.active, b ≠ none

theorem AtStart.rem (h : AtStart x) : rem x = [] := by
  unfold Wds.rem
  rw [h.2]
  simp only [List.reverse_nil, List.flatMap_nil, List.append_nil, List.flatMap_eq_nil_iff]
  intro b hb
  rw [h.1 b hb]
  rfl

theorem perm_set {α β : Type} {f : β → List α} {l : List β} {i : Nat} {b b' : β} {pre post : List α} (h : l[i]? = some b)
    (h' : (pre ++ f b').Perm (post ++ f b)) : (pre ++ (l.set i b').flatMap f).Perm (post ++ l.flatMap f) := by
  induction l generalizing i with
  | nil => simp at h
  | cons d l ih =>
    cases i with
    | zero =>
      simp only [List.getElem?_cons_zero, Option.some.injEq] at h
      subst h
      simp only [List.set_cons_zero, List.flatMap_cons, ← List.append_assoc]
      exact h'.append_right _
    | succ i =>
      simp only [List.getElem?_cons_succ] at h
      simp only [List.set_cons_succ, List.flatMap_cons]
      have := ih h
      refine (List.perm_append_comm_assoc _ _ _).trans ?_
      exact (this.append_left (f d)).trans (List.perm_append_comm_assoc _ _ _)

theorem rel_set (hv : Valid c) (hi : Inv c x) {i : Nat} {b b' : Active C} {pre post : List (Smp C)} (h : x.active[i]? = some b)
    (h' : Rel c (pre ++ rest b') (post ++ rest b)) :
    Rel c (pre ++ (x.active.set i b').flatMap rest) (post ++ x.active.flatMap rest) := by
  refine ⟨perm_set h h'.1, fun e => ?_⟩
  have hl := hi.len
  rw [hv.one e] at hl
  obtain ⟨d, hd⟩ := List.length_eq_one_iff.1 hl
  rw [hd] at h ⊢
  cases i with
  | zero => 
    simp only [List.getElem?_cons_zero, Option.some.injEq] at h
    subst h
    simpa using h'.2 e
  | succ i => simp at h

theorem reverse_of_getLast? {α : Type} {l : List α} {a : α} (h : l.getLast? = some a) : l.reverse = a :: l.dropLast.reverse := by
  obtain ⟨k, rfl⟩ := List.getLast?_eq_some_iff.1 h
  simp

theorem rem_fill (k : Nat) (o : List (Slice C)) :
    (fill k o).1.flatMap rest ++ (fill k o).2.reverse.flatMap (·.samples) = o.reverse.flatMap (·.samples) := by
  induction k generalizing o with
  | zero => simp [fill]
  | succ k ih =>
    unfold fill
    cases h : o.getLast? with
    | none =>
      rw [List.getLast?_eq_none_iff] at h
      subst h
      simp only [List.reverse_nil, List.flatMap_nil, List.append_nil, List.flatMap_eq_nil_iff]
      intro b hb
      rw [List.eq_of_mem_replicate hb]
      rfl
    | some s =>
      rw [reverse_of_getLast? h]
      simp only [List.flatMap_cons, List.append_assoc, ih]
      rfl

theorem fill_len (k : Nat) (o : List (Slice C)) : (fill k o).1.length = k := by
  induction k generalizing o with
  | zero => rfl
  | succ k ih =>
    unfold fill
    cases h : o.getLast? with
    | none => simp
    | some s => simp [ih]

theorem fill_pend (k : Nat) (o : List (Slice C)) (h : (fill k o).2 ≠ []) : ∀ b ∈ (fill k o).1, b ≠ none := by
  induction k generalizing o with
  | zero => simp [fill]
  | succ k ih =>
    unfold fill at h ⊢
    cases hl : o.getLast? with
    | none =>
      rw [List.getLast?_eq_none_iff] at hl
      subst hl
      exact absurd rfl h
    | some s =>
      simp only [hl] at h ⊢
      intro b hb
      rcases List.mem_cons.1 hb with rfl | hb
      · simp
      · exact ih _ h b hb

theorem flatMap_perm {α β : Type} {l l' : List α} (f : α → List β) (h : l.Perm l') : (l.flatMap f).Perm (l'.flatMap f) := by
  induction h with
  | nil => exact .refl _
  | cons a _ ih => exact ih.append_left _
  | swap a b l => 
    simp only [List.flatMap_cons]
    exact List.perm_append_comm_assoc _ _ _
  | trans _ _ ih ih' => exact ih.trans ih'

theorem full_eq (c : Cfg C) : c.full = (timesL c.copies c.shards).flatMap (·.samples) := by
  unfold Cfg.full timesL Cfg.samples
  induction c.copies with
  | zero => rfl
  | succ n ih => 
    rw [List.replicate_succ, List.replicate_succ, List.flatten_cons, List.flatten_cons, List.flatMap_append, ih]
    rfl

theorem rem_newEpoch (hm : c.mode ≠ .replace) (x : LdX C ρ) : Rel c (rem (newEpoch R c x)) c.full := by
  have h : rem (newEpoch R c x) = (shardsOnce R c x.rng).1.flatMap (·.samples) := by
    have := rem_fill c.parallel (shardsOnce R c x.rng).1.reverse
    rw [List.reverse_reverse] at this
    exact this
  rw [h, full_eq]
  unfold Cfg.copies shardsOnce
  cases hm' : c.mode with
  | none => simpa [timesL] using Rel.rfl'
  | over n => 
    refine ⟨flatMap_perm _ (shuffle_perm R x.rng _), fun e => ?_⟩
    rw [hm'] at e
    cases e
  | replace => exact absurd hm' hm

theorem Inv.newEpoch (x : LdX C ρ) : Inv c (newEpoch R c x) :=
  ⟨Mem.newEpoch x, fill_len _ _, fill_pend _ _⟩

theorem Inv.atStart (hv : Valid c) (h : Inv c x) (hw : ∀ b ∈ x.active, weight b = 0) : AtStart x := by
  have h1 : ∀ b ∈ x.active, b = none := by
    intro b hb
    cases b with
    | none => rfl
    | some b => 
      have := hv.count _ (h.mem.2 _ hb b.1 b.2 rfl)
      have := hw _ hb
      simp only [weight] at this
      omega
  refine ⟨h1, ?_⟩
  by_cases hp : x.pending = []
  · exact hp
  · have hl := hv.pos
    rw [← h.len] at hl
    have := List.getElem_mem (Nat.lt_of_lt_of_le Nat.zero_lt_one hl)
    exact absurd (h1 _ this) (h.pend hp _ this)

theorem Inv.exhausted (h : Inv c x) {i : Nat} {g : ρ} : Inv c (exhausted R c x i g) := by
  refine ⟨h.mem.exhausted i g, ?_, ?_⟩
  · unfold Wds.exhausted
    cases x.pending.getLast? with
    | some s => simpa using h.len
    | none => cases c.mode <;> simpa using h.len
  · unfold Wds.exhausted
    cases hl : x.pending.getLast? with
    | some s =>
      intro _ b hb
      rcases List.mem_or_eq_of_mem_set hb with hb | rfl
      · refine h.pend ?_ b hb
        intro e
        rw [e] at hl
        cases hl
      · simp
    | none =>
      rw [List.getLast?_eq_none_iff] at hl
      intro hp
      refine absurd ?_ hp
      cases c.mode <;> exact hl

theorem rest_nil {s : Slice C} {p : Nat} (h : s.samples[p]? = none) : rest (some (s, p)) = [] :=
  List.drop_eq_nil_of_le (List.getElem?_eq_none_iff.1 h)

theorem rest_cons {s : Slice C} {p : Nat} {a : Smp C} (h : s.samples[p]? = some a) :
    rest (some (s, p)) = a :: rest (some (s, p + 1)) := by
  obtain ⟨hp, rfl⟩ := List.getElem?_eq_some_iff.1 h
  exact List.drop_eq_getElem_cons hp

theorem rem_exhausted (hv : Valid c) (hm : c.mode ≠ .replace) (h : Inv c x) {i p : Nat} {g : ρ} {s : Slice C}
    (ha : x.active[i]? = some (some (s, p))) (hp : s.samples[p]? = none) : Rel c (rem (exhausted R c x i g)) (rem x) := by
  unfold exhausted
  cases hl : x.pending.getLast? with
  | some t =>
    have := rel_set hv h (b' := some (t, 0)) (pre := []) (post := t.samples) ha (by
      rw [rest_nil hp]
      simpa [rest] using Rel.rfl')
    unfold rem
    rw [reverse_of_getLast? hl]
    simp only [List.nil_append] at this
    refine ⟨(this.1.append_right _).trans ?_, fun e => ?_⟩
    · simp only [List.flatMap_cons]
      rw [List.append_assoc]
      exact List.perm_append_comm_assoc _ _ _
    · simp only [List.flatMap_cons]
      rw [this.2 e, List.append_assoc]
      have hb : x.active.flatMap rest = [] := by
        have hl := h.len
        rw [hv.one e] at hl
        obtain ⟨d, hd⟩ := List.length_eq_one_iff.1 hl
        rw [hd] at ha ⊢
        cases i with
        | zero =>
          simp only [List.getElem?_cons_zero, Option.some.injEq] at ha
          subst ha
          simpa using rest_nil hp
        | succ i => simp at ha
      rw [hb]
      rfl
  | none =>
    have := rel_set hv h (b' := none) (pre := []) (post := []) ha (by
      rw [rest_nil hp]
      simpa [rest] using Rel.rfl')
    simp only [List.nil_append] at this
    have key : Rel c ((x.active.set i none).flatMap rest ++ x.pending.reverse.flatMap (·.samples)) (rem x) :=
      ⟨this.1.append_right _, fun e => by rw [this.2 e]; rfl⟩
    cases hm' : c.mode with
    | none => exact key
    | over n => exact key
    | replace => exact absurd hm' hm

theorem rem_item (hv : Valid c) (h : Inv c x) {i p : Nat} {g : ρ} {s : Slice C} {n m : Nat} {a : Smp C}
    (ha : x.active[i]? = some (some (s, p))) (hp : s.samples[p]? = some a) :
    Rel c (a :: rem { x with active := x.active.set i (some (s, p + 1)), rng := g, count := n, epochCount := m }) (rem x) := by
  have := rel_set hv h (b' := some (s, p + 1)) (pre := [a]) (post := []) ha (by
    rw [rest_cons hp]
    exact Rel.rfl')
  exact ⟨by simpa [rem] using this.1.append_right _, fun e => by have := this.2 e; simp only [List.nil_append] at this; simp [rem, ← this]⟩

theorem Inv.item (h : Inv c x) {i p : Nat} {g : ρ} {s : Slice C} {n m : Nat}
    (ha : x.active[i]? = some (some (s, p))) :
    Inv c { x with active := x.active.set i (some (s, p + 1)), rng := g, count := n, epochCount := m } := by
  refine ⟨⟨h.mem.1, h.mem.set i _ ?_⟩, by simpa using h.len, ?_⟩
  · intro t q e
    cases e
    exact h.mem.2 _ (List.mem_of_getElem? ha) _ _ rfl
  · intro hp b hb
    rcases List.mem_or_eq_of_mem_set hb with hb | rfl
    · exact h.pend hp b hb
    · simp

theorem notStart_of (ha : ∃ b ∈ x.active, b ≠ none) : ¬ AtStart x := by
  rintro ⟨h, _⟩
  obtain ⟨b, hb, hn⟩ := ha
  exact hn (h b hb)

theorem notStart_get {i : Nat} {b} (ha : x.active[i]? = some (some b)) : ¬ AtStart x :=
  notStart_of ⟨_, List.mem_of_getElem? ha, by simp⟩

theorem Inv.obs (hv : Valid c) (hm : c.mode ≠ .replace) (h : Inv c x) {o} (ho : Obs (ldStep R c) x o) :
    (∀ a x', o = .item a x' → Inv c x' ∧ ((¬ AtStart x ∧ Rel c (a :: rem x') (rem x)) ∨
      ((x.ctl ≠ .pick ∧ AtStart x ∨ c.loop = true ∧ rem x = []) ∧ Rel c (a :: rem x') c.full))) ∧
    (∀ x', o = .fin x' → Inv c x' ∧ AtStart x' ∧ (c.shards = [] ∨ c.loop = false) ∧
      ((¬ AtStart x ∧ rem x = []) ∨ (x.ctl ≠ .pick ∧ AtStart x ∧ c.full = []) ∨ (x.ctl = .pick ∧ AtStart x))) ∧
    (o = .err → False) := by
  induction ho with
  | @item x b x' he =>
    have hs := lstep R c x
    rw [he] at hs
    generalize hst : Stream.Step.yield b x' = st at hs
    cases hs <;> cases hst
    rename_i i g s pos hc hw hpi ha hp
    refine ⟨?_, by simp, by simp⟩
    rintro _ _ ⟨⟩
    exact ⟨h.item ha, .inl ⟨notStart_get ha, rem_item hv h ha hp⟩⟩
  | @fin x x' he =>
    have hs := lstep R c x
    rw [he] at hs
    generalize hst : Stream.Step.stop x' = st at hs
    cases hs <;> cases hst
    · rename_i hc hn
      refine ⟨by simp, ?_, by simp⟩
      rintro _ ⟨⟩
      have hst : AtStart x := by
        constructor
        · intro b hb
          cases b with
          | none => rfl
          | some b => 
            have := h.mem.2 _ hb b.1 b.2 rfl
            rw [hn] at this
            cases this
        · apply List.eq_nil_iff_forall_not_mem.2
          intro s hs
          have := h.mem.1 _ hs
          rw [hn] at this
          cases this
      refine ⟨h, hst, .inl hn, .inr (.inl ⟨by rw [hc]; simp, hst, ?_⟩)⟩
      rw [full_eq]
      apply List.eq_nil_iff_forall_not_mem.2
      intro a ha
      obtain ⟨s, hs, _⟩ := List.mem_flatMap.1 ha
      have := mem_timesL hs
      rw [hn] at this
      cases this
    · rename_i hc hw hl
      refine ⟨by simp, ?_, by simp⟩
      rintro _ ⟨⟩
      have hst := h.atStart hv hw
      exact ⟨⟨h.mem, h.len, h.pend⟩, hst, .inr hl, .inr (.inr ⟨hc, hst⟩)⟩
  | @err x he =>
    have hs := lstep R c x
    rw [he] at hs
    generalize hst : Stream.Step.raise = st at hs
    cases hs <;> cases hst
    rename_i i g hc hw hpi ha
    exfalso
    cases hmode : c.mode with
    | none =>
      have e : i = 0 := by
        unfold pickIdx at hpi
        simp only [hmode, Prod.mk.injEq] at hpi
        exact hpi.1.symm
      subst e
      have hl := h.len
      rw [hv.one hmode] at hl
      obtain ⟨d, hd⟩ := List.length_eq_one_iff.1 hl
      obtain ⟨b, hb, hne⟩ := hw
      rw [hd, List.mem_singleton] at hb
      subst hb
      cases b with
      | none => exact hne rfl
      | some b => exact ha b.1 b.2 (by rw [hd]; rfl)
    | replace => exact hm hmode
    | over n =>
      unfold pickIdx at hpi
      simp only [hmode] at hpi
      unfold WRng.choiceIdx at hpi
      by_cases h1 : (x.active.map weight).length = 1
      · rw [if_pos h1] at hpi
        cases hpi
        rw [List.length_map] at h1
        obtain ⟨d, hd⟩ := List.length_eq_one_iff.1 h1
        obtain ⟨b, hb, hne⟩ := hw
        rw [hd, List.mem_singleton] at hb
        subst hb
        cases b with
        | none => exact hne rfl
        | some b => exact ha b.1 b.2 (by rw [hd]; rfl)
      · rw [if_neg h1] at hpi
        obtain ⟨w, hw1, hw2⟩ := R.choice_pos x.rng (x.active.map weight) (by
          obtain ⟨b, hb, hne⟩ := hw
          exact ⟨_, List.mem_map.2 ⟨b, hb, rfl⟩, hne⟩)
        rw [hpi, List.getElem?_map] at hw1
        obtain ⟨b, hb, rfl⟩ := Option.map_eq_some_iff.1 hw1
        cases b with
        | none => exact hw2 rfl
        | some b => exact ha b.1 b.2 hb
  | @skip x x' o he hobs ih =>
    clear hobs
    have hs := lstep R c x
    rw [he] at hs
    generalize hst : Stream.Step.skip x' = st at hs
    cases hs <;> cases hst
    · -- begin
      rename_i hc hn
      obtain ⟨h1, h2, h3⟩ := ih ⟨h.mem, h.len, h.pend⟩
      refine ⟨fun a y e => ?_, fun y e => ?_, h3⟩
      · obtain ⟨g1, g2⟩ := h1 a y e
        refine ⟨g1, ?_⟩
        rcases g2 with g2 | ⟨⟨_, g2⟩ | g2, g3⟩
        · exact .inl g2
        · exact .inr ⟨.inl ⟨by simp [hc], g2⟩, g3⟩
        · exact .inr ⟨.inr g2, g3⟩
      · obtain ⟨g1, g2, g3, g4⟩ := h2 y e
        refine ⟨g1, g2, g3, ?_⟩
        rcases g4 with g4 | ⟨_, g4⟩ | ⟨g4, _⟩
        · exact .inl g4
        · exact .inr (.inl ⟨by simp [hc], g4⟩)
        · cases g4
    · -- cont
      rename_i hc hn
      obtain ⟨h1, h2, h3⟩ := ih ⟨h.mem, h.len, h.pend⟩
      have hns : ¬ AtStart x := by
        rintro ⟨k1, k2⟩
        rcases hn with hn | hn
        · obtain ⟨b, hb, hs⟩ := List.any_eq_true.1 hn
          rw [k1 b hb] at hs
          cases hs
        · exact hn k2
      refine ⟨fun a y e => ?_, fun y e => ?_, h3⟩
      · obtain ⟨g1, g2⟩ := h1 a y e
        refine ⟨g1, ?_⟩
        rcases g2 with g2 | ⟨⟨_, g2⟩ | g2, g3⟩
        · exact .inl g2
        · exact absurd g2 hns
        · exact .inr ⟨.inr g2, g3⟩
      · obtain ⟨g1, g2, g3, g4⟩ := h2 y e
        refine ⟨g1, g2, g3, ?_⟩
        rcases g4 with g4 | ⟨_, g4, _⟩ | ⟨_, g4⟩
        · exact .inl g4
        · exact absurd g4 hns
        · exact absurd g4 hns
    · -- epoch
      rename_i hc hn
      obtain ⟨h1, h2, h3⟩ := ih (Inv.newEpoch x)
      have hr := rem_newEpoch (R := R) hm x
      have hst : AtStart x := by
        refine ⟨fun b hb => ?_, hn.2⟩
        have := List.any_eq_false.1 hn.1 b hb
        cases b with
        | none => rfl
        | some b => exact absurd rfl this
      have hcp : x.ctl ≠ .pick := by rw [hc]; simp
      refine ⟨fun a y e => ?_, fun y e => ?_, h3⟩
      · obtain ⟨g1, g2⟩ := h1 a y e
        refine ⟨g1, .inr ⟨.inl ⟨hcp, hst⟩, ?_⟩⟩
        rcases g2 with ⟨_, g2⟩ | ⟨_, g3⟩
        · exact g2.trans hr
        · exact g3
      · obtain ⟨g1, g2, g3, g4⟩ := h2 y e
        refine ⟨g1, g2, g3, .inr (.inl ⟨hcp, hst, ?_⟩)⟩
        rcases g4 with g4 | ⟨_, _, g4⟩ | ⟨_, g4⟩
        · rw [g4.2] at hr
          exact hr.symm.nil
        · exact g4
        · rw [g4.rem] at hr
          exact hr.symm.nil
    · -- again
      rename_i hc hw hl
      have hst := h.atStart hv hw
      obtain ⟨h1, h2, h3⟩ := ih ⟨h.mem, h.len, h.pend⟩
      refine ⟨fun a y e => ?_, fun y e => ?_, h3⟩
      · obtain ⟨g1, g2⟩ := h1 a y e
        refine ⟨g1, .inr ⟨.inr ⟨hl, hst.rem⟩, ?_⟩⟩
        rcases g2 with ⟨g2, _⟩ | ⟨_, g3⟩
        · exact absurd hst g2
        · exact g3
      · obtain ⟨g1, g2, g3, g4⟩ := h2 y e
        exact ⟨g1, g2, g3, .inr (.inr ⟨hc, hst⟩)⟩
    · -- exh
      rename_i i g s pos hc hw hpi ha hp
      have hr := rem_exhausted (R := R) (g := g) hv hm h ha hp
      have hns := notStart_get ha
      have hc' : (Wds.exhausted R c x i g).ctl = .pick := by
        unfold Wds.exhausted
        cases x.pending.getLast? with
        | some s => exact hc
        | none => cases c.mode <;> exact hc
      obtain ⟨h1, h2, h3⟩ := ih h.exhausted
      refine ⟨fun a y e => ?_, fun y e => ?_, h3⟩
      · obtain ⟨g1, g2⟩ := h1 a y e
        refine ⟨g1, ?_⟩
        rcases g2 with ⟨_, g2⟩ | ⟨⟨g2, _⟩ | g2, g3⟩
        · exact .inl ⟨hns, g2.trans hr⟩
        · exact absurd hc' g2
        · refine .inr ⟨.inr ⟨g2.1, ?_⟩, g3⟩
          rw [g2.2] at hr
          exact hr.symm.nil
      · obtain ⟨g1, g2, g3, g4⟩ := h2 y e
        refine ⟨g1, g2, g3, .inl ⟨hns, ?_⟩⟩
        rcases g4 with g4 | ⟨g4, _⟩ | ⟨_, g4⟩
        · rw [g4.2] at hr
          exact hr.symm.nil
        · exact absurd hc' g4
        · rw [g4.rem] at hr
          exact hr.symm.nil

end Verif.Wds
