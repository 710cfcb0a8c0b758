import Verif.Wds.ReaderLemmas

/-! Lemmas about the reader of a slice. -/

namespace Verif.Wds

open Verif.Stream

variable {B : Type} {excl : Name → Bool} {sh : Shard} {r r' : Rd B}

/-- The files that are not excluded -/
def entX (excl : Name → Bool) (l : List (Member B)) : List (Entry B) := (entries l).filter (fun e => !excl e.base)

theorem entX_append (l l' : List (Member B)) : entX excl (l ++ l') = entX excl l ++ entX excl l' := by
  simp [entX, entries_append]

def Cur.entry (c : Cur B) : Entry B := ⟨c.base, c.ext, c.data⟩

def entS (excl : Name → Bool) (s : List (Nat × Member B)) : List (Entry B) := entX excl (s.map (·.2))

theorem entS_append (s s' : List (Nat × Member B)) : entS excl (s ++ s') = entS excl s ++ entS excl s' := by
  simp [entS, entX_append]

/-- What a reader still has to deliver -/
def pend (excl : Name → Bool) (r : Rd B) : List (Entry B) := (r.cur.map Cur.entry).toList ++ entS excl r.stream

/-- `c` is the member at the head of this stream. -/
structure Heads (excl : Name → Bool) (c : Cur B) (om : Nat × Member B) : Prop where
  off : om.1 = c.off
  part : om.2.part = some (c.base, c.ext)
  data : om.2.data = c.data
  ok : excl c.base = false

theorem Heads.ent {c : Cur B} {om : Nat × Member B} (h : Heads excl c om) (s : List (Nat × Member B)) :
    entS excl (om :: s) = c.entry :: entS excl s := by
  simp [entS, entX, entries, h.part, h.ok, h.data, Cur.entry]

theorem nextInfo_none {s : List (Nat × Member B)} (h : nextInfo excl s = none) : entS excl s = [] := by
  induction s with
  | nil => rfl
  | cons om s ih =>
    obtain ⟨off, m⟩ := om
    unfold nextInfo at h
    cases hp : m.part with
    | none => 
      simp only [hp] at h
      have := ih h
      simpa [entS, entX, entries, hp] using this
    | some be =>
      obtain ⟨b, x⟩ := be
      simp only [hp] at h
      cases hx : excl b with
      | true =>
        simp only [hx, if_true] at h
        have := ih h
        simpa [entS, entX, entries, hp, hx] using this
      | false => simp [hx] at h

theorem nextInfo_some {s rest : List (Nat × Member B)} {c : Cur B} (h : nextInfo excl s = some (c, rest)) :
    ∃ pre om, s = pre ++ om :: rest ∧ Heads excl c om ∧ entS excl pre = [] := by
  induction s with
  | nil => cases h
  | cons om s ih =>
    obtain ⟨off, m⟩ := om
    unfold nextInfo at h
    cases hp : m.part with
    | none => 
      simp only [hp] at h
      obtain ⟨pre, om, h1, h2, h3⟩ := ih h
      exact ⟨(off, m) :: pre, om, by rw [h1]; rfl, h2, by simpa [entS, entX, entries, hp] using h3⟩
    | some be =>
      obtain ⟨b, x⟩ := be
      simp only [hp] at h
      cases hx : excl b with
      | true =>
        simp only [hx, if_true] at h
        obtain ⟨pre, om, h1, h2, h3⟩ := ih h
        exact ⟨(off, m) :: pre, om, by rw [h1]; rfl, h2, by simpa [entS, entX, entries, hp, hx] using h3⟩
      | false =>
        simp only [hx, Bool.false_eq_true, if_false, Option.some.injEq, Prod.mk.injEq] at h
        obtain ⟨rfl, rfl⟩ := h
        exact ⟨[], (off, m), rfl, ⟨rfl, hp, rfl, hx⟩, rfl⟩

/-- `group[ext] = data` for several files -/
def addParts (d : List (Name × B)) (g : List (Entry B)) : List (Name × B) := g.foldl (fun d e => dictSet e.ext e.data d) d

theorem readGroup_none {s : List (Nat × Member B)} {base : Name} {parts P : List (Name × B)}
    (h : readGroup excl base parts s = (P, none)) : (∀ e ∈ entS excl s, e.base = base) ∧ P = addParts parts (entS excl s) := by
  induction s generalizing parts with
  | nil =>
    cases h
    exact ⟨by simp [entS, entX, entries], rfl⟩
  | cons om s ih =>
    obtain ⟨off, m⟩ := om
    unfold readGroup at h
    cases hp : m.part with
    | none =>
      simp only [hp] at h
      have he : entS excl ((off, m) :: s) = entS excl s := by simp [entS, entX, entries, hp]
      rw [he]
      exact ih h
    | some be =>
      obtain ⟨b, x⟩ := be
      simp only [hp] at h
      cases hx : excl b with
      | true =>
        simp only [hx, if_true] at h
        have he : entS excl ((off, m) :: s) = entS excl s := by simp [entS, entX, entries, hp, hx]
        rw [he]
        exact ih h
      | false =>
        simp only [hx, Bool.false_eq_true, if_false] at h
        by_cases hb : base = b
        · subst hb
          simp only [ne_eq, not_true_eq_false, if_false] at h
          have he : entS excl ((off, m) :: s) = ⟨base, x, m.data⟩ :: entS excl s := by simp [entS, entX, entries, hp, hx]
          rw [he]
          obtain ⟨h1, h2⟩ := ih h
          exact ⟨by simpa using h1, h2⟩
        · rw [if_pos hb] at h
          cases h

theorem readGroup_some {s rest : List (Nat × Member B)} {base : Name} {parts P : List (Name × B)} {c : Cur B}
    (h : readGroup excl base parts s = (P, some (c, rest))) :
    ∃ pre om, s = pre ++ om :: rest ∧ Heads excl c om ∧ (∀ e ∈ entS excl pre, e.base = base) ∧
      P = addParts parts (entS excl pre) ∧ base ≠ c.base := by
  induction s generalizing parts with
  | nil => cases h
  | cons om s ih =>
    obtain ⟨off, m⟩ := om
    unfold readGroup at h
    cases hp : m.part with
    | none =>
      simp only [hp] at h
      obtain ⟨pre, om, h1, h2, h3⟩ := ih h
      refine ⟨(off, m) :: pre, om, by rw [h1]; rfl, h2, ?_⟩
      have he : entS excl ((off, m) :: pre) = entS excl pre := by simp [entS, entX, entries, hp]
      rw [he]
      exact h3
    | some be =>
      obtain ⟨b, x⟩ := be
      simp only [hp] at h
      cases hx : excl b with
      | true =>
        simp only [hx, if_true] at h
        obtain ⟨pre, om, h1, h2, h3⟩ := ih h
        refine ⟨(off, m) :: pre, om, by rw [h1]; rfl, h2, ?_⟩
        have he : entS excl ((off, m) :: pre) = entS excl pre := by simp [entS, entX, entries, hp, hx]
        rw [he]
        exact h3
      | false =>
        simp only [hx, Bool.false_eq_true, if_false] at h
        by_cases hb : base = b
        · subst hb
          simp only [ne_eq, not_true_eq_false, if_false] at h
          obtain ⟨pre, om, h1, h2, h3, h4, h5⟩ := ih h
          refine ⟨(off, m) :: pre, om, by rw [h1]; rfl, h2, ?_⟩
          have he : entS excl ((off, m) :: pre) = ⟨base, x, m.data⟩ :: entS excl pre := by simp [entS, entX, entries, hp, hx]
          rw [he]
          exact ⟨by simpa using h3, h4, h5⟩
        · rw [if_pos hb] at h
          simp only [Prod.mk.injEq, Option.some.injEq] at h
          obtain ⟨rfl, rfl, rfl⟩ := h
          exact ⟨[], (off, m), rfl, ⟨rfl, hp, rfl, hx⟩, by simp [entS, entX, entries], rfl, hb⟩

/-- The current member and the stream, after `_next_tarinfo` if needed. -/
def peek (excl : Name → Bool) (r : Rd B) : Option (Cur B × List (Nat × Member B)) :=
  match r.cur with
  | some c => some (c, r.stream)
  | none => nextInfo excl r.stream

theorem peek_none (h : peek excl r = none) : pend excl r = [] := by
  unfold peek at h
  cases hc : r.cur with
  | some c => simp [hc] at h
  | none =>
    simp only [hc] at h
    simp [pend, hc, nextInfo_none h]

theorem peek_some {c : Cur B} {rest} (h : peek excl r = some (c, rest)) : pend excl r = c.entry :: entS excl rest := by
  unfold peek at h
  cases hc : r.cur with
  | some c =>
    simp only [hc, Option.some.injEq, Prod.mk.injEq] at h
    obtain ⟨rfl, rfl⟩ := h
    simp [pend, hc]
  | none =>
    simp only [hc] at h
    obtain ⟨pre, om, h1, h2, h3⟩ := nextInfo_some h
    simp only [pend, hc, Option.map_none, Option.toList_none, List.nil_append]
    rw [h1, entS_append, h3, h2.ent]
    rfl

theorem readNext_eq (want : Option Name) (r : Rd B) : readNext excl sh want r =
  match peek excl r with
  | none => .stop
  | some (c, rest) =>
    if want ≠ none ∧ want ≠ some c.base then .mismatch { r with cur := some c, stream := rest }
    else
      match readGroup excl c.base [(c.ext, c.data)] rest with
      | (parts, some (c', rest')) =>
        .got ⟨⟨c.base, sh.name, parts⟩, [.str "Webdataset", .str sh.name, .num (r.offset + sh.offset)]⟩
          ⟨rest', some c', r.offset + 1, c'.off + r.orig, r.orig⟩
      | (parts, none) =>
        .got ⟨⟨c.base, sh.name, parts⟩, [.str "Webdataset", .str sh.name, .num (r.offset + sh.offset)]⟩
          ⟨[], none, r.offset + 1, (sh.byteSize - (sh.byteOff + r.orig - sh.byteOff)) + r.orig, r.orig⟩ := rfl

theorem sampleOf_cons (name : String) (i : Nat) (c : Cur B) (t : List (Entry B)) :
    sampleOf name i (c.entry :: t) = ⟨⟨c.base, name, addParts [(c.ext, c.data)] t⟩, [.str "Webdataset", .str name, .num i]⟩ := rfl

/-- What `read_next` does, in terms of what is left. -/
theorem readNext_got {want : Option Name} {a : Smp (Raw B)} (h : readNext excl sh want r = .got a r') :
    ∃ g, groups (pend excl r) = g :: groups (pend excl r') ∧ a = sampleOf sh.name (r.offset + sh.offset) g ∧ 
      r'.offset = r.offset + 1 ∧ (want = none ∨ want = some a.content.base) ∧ g ≠ [] := by
  rw [readNext_eq] at h
  cases hp : peek excl r with
  | none => simp [hp] at h
  | some cr =>
    obtain ⟨c, rest⟩ := cr
    simp only [hp] at h
    split at h
    · cases h
    next hw =>
    have hw' : want = none ∨ want = some c.base := by
      by_cases h1 : want = none
      · exact .inl h1
      · right
        apply Decidable.byContradiction
        intro h2
        exact hw ⟨h1, h2⟩
    have hpend := peek_some hp
    cases hg : readGroup excl c.base [(c.ext, c.data)] rest with
    | mk P o =>
      rw [hg] at h
      cases o with
      | none =>
        simp only [Rn.got.injEq] at h
        obtain ⟨rfl, rfl⟩ := h
        obtain ⟨h1, h2⟩ := readGroup_none hg
        refine ⟨c.entry :: entS excl rest, ?_, ?_, rfl, hw', by simp⟩
        · rw [hpend]
          have := groups_append_run (e := c.entry) (t := entS excl rest) (l := []) h1 (by simp [groups])
          simpa [pend, entS, entX, entries] using this
        · rw [sampleOf_cons, ← h2]
      | some cr' =>
        obtain ⟨c', rest'⟩ := cr'
        simp only [Rn.got.injEq] at h
        obtain ⟨rfl, rfl⟩ := h
        obtain ⟨pre, om, h1, h2, h3, h4, h5⟩ := readGroup_some hg
        refine ⟨c.entry :: entS excl pre, ?_, ?_, rfl, hw', by simp⟩
        · rw [hpend, h1, entS_append, h2.ent]
          have e : pend excl ⟨rest', some c', r.offset + 1, c'.off + r.orig, r.orig⟩ = c'.entry :: entS excl rest' := rfl
          rw [e]
          refine groups_append_run (e := c.entry) (t := entS excl pre) (l := c'.entry :: entS excl rest') h3 ?_
          intro f t' hf
          rw [groups_cons] at hf
          simp only [List.head?_cons, Option.some.injEq, List.cons.injEq] at hf
          rw [← hf.1]
          exact fun h => h5 h.symm
        · rw [sampleOf_cons, ← h4]

theorem readNext_stop {want : Option Name} (h : readNext excl sh want r = .stop) : pend excl r = [] := by
  rw [readNext_eq] at h
  cases hp : peek excl r with
  | none => exact peek_none hp
  | some cr =>
    obtain ⟨c, rest⟩ := cr
    simp only [hp] at h
    split at h
    · cases h
    · cases hg : readGroup excl c.base [(c.ext, c.data)] rest with
      | mk P o => rw [hg] at h; cases o <;> cases h

theorem readNext_ne_mismatch : readNext excl sh none r ≠ .mismatch r' := by
  intro h
  rw [readNext_eq] at h
  cases hp : peek excl r with
  | none => simp [hp] at h
  | some cr =>
    obtain ⟨c, rest⟩ := cr
    simp only [hp, ne_eq, not_true_eq_false, false_and, if_false] at h
    cases hg : readGroup excl c.base [(c.ext, c.data)] rest with
    | mk P o => rw [hg] at h; cases o <;> cases h

theorem groups_eq_nil {l : List (Entry B)} : groups l = [] ↔ l = [] := by
  constructor
  · intro h
    rw [← groups_flatten l, h]
    rfl
  · rintro rfl
    rfl

theorem samplesOf_cons (name : String) (i : Nat) (g : List (Entry B)) (gs) :
    samplesOf name i (g :: gs) = sampleOf name i g :: samplesOf name (i + 1) gs := by
  simp [samplesOf]

/-- The samples read are the groups of what is left. -/
theorem reads_iff {xs : List (Smp (Raw B))} :
    Reads excl sh r xs ↔ xs = samplesOf sh.name (r.offset + sh.offset) (groups (pend excl r)) := by
  constructor
  · intro h
    induction h with
    | stop h1 => rw [readNext_stop h1]; rfl
    | next h1 _ ih =>
      obtain ⟨g, h2, h3, h4, _⟩ := readNext_got h1
      rw [h2, samplesOf_cons, ih, h3, h4, Nat.add_right_comm]
  · rintro rfl
    generalize hn : (groups (pend excl r)).length = n
    induction n generalizing r with
    | zero =>
      have h0 := groups_eq_nil.1 (List.length_eq_zero_iff.1 hn)
      rw [h0]
      apply Reads.stop
      cases h : readNext excl sh none r with
      | stop => rfl
      | mismatch r' => exact absurd h readNext_ne_mismatch
      | got a r' =>
        obtain ⟨g, h2, _⟩ := readNext_got h
        rw [h0] at h2
        cases h2
    | succ n ih =>
      cases h : readNext excl sh none r with
      | stop => rw [readNext_stop h] at hn; cases hn
      | mismatch r' => exact absurd h readNext_ne_mismatch
      | got a r' =>
        obtain ⟨g, h2, h3, h4, _⟩ := readNext_got h
        rw [h2, samplesOf_cons]
        rw [h2] at hn
        have := ih (r := r') (by simpa using hn)
        rw [h4, Nat.add_right_comm] at this
        rw [← h3]
        exact .next h this

end Verif.Wds
