import Verif.Wds.FilterModel
import Verif.Wds.ReaderProps

/-!
# C97: part filters
-/

namespace Verif.Wds

open Verif.Stream

variable {B : Type}

/-! ## Specification -/

/-- The sample with only those parts that are read -/
def onlyRead (sel : Name → Name → PartRes) (a : Smp (Raw B)) : Smp (Raw B) :=
  ⟨{ a.content with parts := a.content.parts.filter fun p => sel a.content.base p.1 = .read }, a.key⟩

/-- Reading a part of the sample raises an exception that is not handled. -/
def Breaks (sel : Name → Name → PartRes) (raising : Bool) (a : Smp (Raw B)) : Prop :=
  ∃ p ∈ a.content.parts, sel a.content.base p.1 = .fatal ∨ (raising = true ∧ sel a.content.base p.1 = .fail)

instance (sel : Name → Name → PartRes) (raising : Bool) (a : Smp (Raw B)) : Decidable (Breaks sel raising a) := by
  unfold Breaks; infer_instance

/-! ## Reading with a filter -/

variable {sel : Name → Name → PartRes} {raising : Bool} {excl : Name → Bool} {sh : Shard}

def filt (sel : Name → Name → PartRes) (base : Name) (l : List (Name × B)) : List (Name × B) := l.filter fun p => sel base p.1 = .read

def bad (sel : Name → Name → PartRes) (raising : Bool) (base : Name) (x : Name) : Prop :=
  sel base x = .fatal ∨ (raising = true ∧ sel base x = .fail)

theorem filt_dictSet (base k : Name) (v : B) (l : List (Name × B)) :
    filt sel base (dictSet k v l) = if sel base k = .read then dictSet k v (filt sel base l) else filt sel base l := by
  induction l with
  | nil =>
    unfold dictSet filt
    by_cases h : sel base k = .read <;> simp [h, dictSet]
  | cons p l ih =>
    obtain ⟨k', v'⟩ := p
    have hstep : dictSet k v ((k', v') :: l) = if k' = k then (k, v) :: l else (k', v') :: dictSet k v l := rfl
    rw [hstep]
    by_cases hk : k' = k
    · subst hk
      rw [if_pos rfl]
      by_cases h : sel base k' = .read
      · simp [filt, h, dictSet]
      · simp [filt, h]
    · rw [if_neg hk]
      unfold filt at ih ⊢
      by_cases h' : sel base k' = .read
      · rw [List.filter_cons_of_pos (by simpa using h'), List.filter_cons_of_pos (by simpa using h'), ih]
        by_cases h : sel base k = .read
        · rw [if_pos h, if_pos h]
          exact (if_neg hk).symm
        · rw [if_neg h, if_neg h]
      · rw [List.filter_cons_of_neg (by simpa using h'), List.filter_cons_of_neg (by simpa using h'), ih]

theorem addPart_eq (base ext : Name) (v : B) (l : List (Name × B)) :
    (bad sel raising base ext ∧ addPart sel raising base ext v (filt sel base l) = none) ∨
    (¬ bad sel raising base ext ∧ addPart sel raising base ext v (filt sel base l) = some (filt sel base (dictSet ext v l))) := by
  unfold addPart bad
  rw [filt_dictSet]
  cases h : sel base ext <;> cases raising <;> simp

theorem readGroup_keys (base : Name) : ∀ (l : List (Nat × Member B)) (parts : List (Name × B)),
    ∀ k ∈ parts.map (·.1), k ∈ (readGroup excl base parts l).1.map (·.1)
  | [], parts, k, hk => by unfold readGroup; exact hk
  | (off, m) :: l, parts, k, hk => by
    unfold readGroup
    cases hm : m.part with
    | none => exact readGroup_keys base l parts k hk
    | some p =>
      obtain ⟨b, ext⟩ := p
      dsimp only
      split
      · exact readGroup_keys base l parts k hk
      · split
        · exact hk
        · refine readGroup_keys base l _ k ?_
          rw [dictSet_keys]
          split
          · exact hk
          · exact List.mem_append_left _ hk

theorem mem_dictSet_keys (k : Name) (v : B) (d : List (Name × B)) : k ∈ (dictSet k v d).map (·.1) := by
  rw [dictSet_keys]
  split
  · assumption
  · simp

theorem readGroupF_eq (base : Name) : ∀ (l : List (Nat × Member B)) (parts : List (Name × B)), (∀ k ∈ parts.map (·.1), ¬ bad sel raising base k) →
    ((∃ k ∈ (readGroup excl base parts l).1.map (·.1), bad sel raising base k) ∧ readGroupF sel raising excl base (filt sel base parts) l = none) ∨
    ((∀ k ∈ (readGroup excl base parts l).1.map (·.1), ¬ bad sel raising base k) ∧ readGroupF sel raising excl base (filt sel base parts) l =
      some (filt sel base (readGroup excl base parts l).1, (readGroup excl base parts l).2))
  | [], parts, h => by unfold readGroup readGroupF; exact Or.inr ⟨h, rfl⟩
  | (off, m) :: l, parts, h => by
    unfold readGroup readGroupF
    cases hm : m.part with
    | none => exact readGroupF_eq base l parts h
    | some p =>
      obtain ⟨b, ext⟩ := p
      dsimp only
      split
      · exact readGroupF_eq base l parts h
      · split
        · exact Or.inr ⟨h, rfl⟩
        · rcases addPart_eq (sel := sel) (raising := raising) base ext m.data parts with ⟨h1, h2⟩ | ⟨h1, h2⟩
          · rw [h2]
            exact Or.inl ⟨⟨ext, readGroup_keys base l _ ext (mem_dictSet_keys ..), h1⟩, rfl⟩
          · rw [h2, Option.bind_some]
            refine readGroupF_eq base l _ (fun k hk => ?_)
            rw [dictSet_keys] at hk
            split at hk
            · exact h k hk
            · rcases List.mem_append.1 hk with hk | hk
              · exact h k hk
              · rw [List.mem_singleton.1 hk]; exact h1

theorem breaks_iff (base : Name) (shard : String) (parts : List (Name × B)) (key : List Key) :
    Breaks sel raising ⟨⟨base, shard, parts⟩, key⟩ ↔ ∃ k ∈ parts.map (·.1), bad sel raising base k := by
  unfold Breaks bad
  constructor
  · rintro ⟨p, hp, h⟩; exact ⟨p.1, List.mem_map.2 ⟨p, hp, rfl⟩, h⟩
  · rintro ⟨k, hk, h⟩
    obtain ⟨p, hp, rfl⟩ := List.mem_map.1 hk
    exact ⟨p, hp, h⟩

/-- **C97, one sample**: reading with a part filter and errors is reading everything, and then: an exception if a part breaks, otherwise the same sample
(key, restore key) with the parts that are read, and the same position in the file afterwards. -/
theorem C97_next (sel : Name → Name → PartRes) (raising : Bool) (excl : Name → Bool) (sh : Shard) (want : Option Name) (r : Rd B) :
    readNextF sel raising excl sh want r =
      match readNext excl sh want r with
      | .stop => some .stop
      | .mismatch r' => some (.mismatch r')
      | .got a r' => if Breaks sel raising a then none else some (.got (onlyRead sel a) r') := by
  rw [readNext_eq]
  show (match peek excl r with
    | none => _
    | some (c, rest) => _) = _
  cases peek excl r with
  | none => rfl
  | some cr =>
    obtain ⟨c, rest⟩ := cr
    dsimp only
    split
    · rfl
    · have h0 := addPart_eq (sel := sel) (raising := raising) c.base c.ext c.data []
      have e0 : filt sel c.base ([] : List (Name × B)) = [] := rfl
      rw [e0] at h0
      have hd : dictSet c.ext c.data ([] : List (Name × B)) = [(c.ext, c.data)] := rfl
      rw [hd] at h0
      rcases h0 with ⟨h1, h2⟩ | ⟨h1, h2⟩
      · rw [h2, Option.bind_none]
        have hk := readGroup_keys (excl := excl) c.base rest [(c.ext, c.data)] c.ext (by simp)
        generalize readGroup excl c.base [(c.ext, c.data)] rest = R at hk
        obtain ⟨P, o⟩ := R
        cases o with
        | none => exact (if_pos ((breaks_iff ..).2 ⟨_, hk, h1⟩)).symm
        | some x => exact (if_pos ((breaks_iff ..).2 ⟨_, hk, h1⟩)).symm
      · rw [h2, Option.bind_some]
        have h3 := readGroupF_eq (sel := sel) (raising := raising) (excl := excl) c.base rest [(c.ext, c.data)] (by
          intro k hk
          simp only [List.map_cons, List.map_nil, List.mem_singleton] at hk
          rw [hk]; exact h1)
        generalize readGroup excl c.base [(c.ext, c.data)] rest = R at h3
        obtain ⟨P, o⟩ := R
        rcases h3 with ⟨h3, h4⟩ | ⟨h3, h4⟩
        · rw [h4]
          cases o with
          | none => exact (if_pos ((breaks_iff ..).2 h3)).symm
          | some x => exact (if_pos ((breaks_iff ..).2 h3)).symm
        · rw [h4]
          have h5 : ∀ key, ¬ Breaks sel raising ⟨⟨c.base, sh.name, P⟩, key⟩ := fun key hb => by
            obtain ⟨k, hk, hb⟩ := (breaks_iff ..).1 hb
            exact h3 k hk hb
          cases o with
          | none => exact (if_neg (h5 _)).symm
          | some x => exact (if_neg (h5 _)).symm

/-- The samples up to the first one that breaks; `true` if there is none -/
def untilBreak (sel : Name → Name → PartRes) (raising : Bool) : List (Smp (Raw B)) → List (Smp (Raw B)) × Bool
  | [] => ([], true)
  | a :: l => if Breaks sel raising a then ([], false) else (onlyRead sel a :: (untilBreak sel raising l).1, (untilBreak sel raising l).2)

theorem readsF_of_reads {r : Rd B} {xs : List (Smp (Raw B))} (h : Reads excl sh r xs) :
    ReadsF sel raising excl sh r (untilBreak sel raising xs).1 (untilBreak sel raising xs).2 := by
  induction h with
  | stop h => refine .stop ?_; rw [C97_next, h]
  | @next r a r' xs h _ ih =>
    unfold untilBreak
    split
    · rename_i hb
      refine .raise ?_
      rw [C97_next, h]
      exact if_pos hb
    · rename_i hb
      refine .next (r' := r') ?_ ih
      rw [C97_next, h]
      exact if_neg hb

theorem readsF_unique {r : Rd B} {xs ys : List (Smp (Raw B))} {b c : Bool} (h : ReadsF sel raising excl sh r xs b) (h' : ReadsF sel raising excl sh r ys c) :
    xs = ys ∧ b = c := by
  induction h generalizing ys c with
  | stop h =>
    cases h' with
    | stop => exact ⟨rfl, rfl⟩
    | raise h' => rw [h] at h'; cases h'
    | next h' _ => rw [h] at h'; cases h'
  | raise h =>
    cases h' with
    | stop h' => rw [h] at h'; cases h'
    | raise => exact ⟨rfl, rfl⟩
    | next h' _ => rw [h] at h'; cases h'
  | next h _ ih =>
    cases h' with
    | stop h' => rw [h] at h'; cases h'
    | raise h' => rw [h] at h'; cases h'
    | next h' h2 =>
      rw [h] at h'
      cases h'
      obtain ⟨rfl, rfl⟩ := ih h2
      exact ⟨rfl, rfl⟩

variable {tar : List (Member B)}

/-- **C97.** With a part filter, and a handler for errors, reading a slice delivers exactly the samples number `a`, ..., `a + n - 1` of the file, in order,
each with its keys and exactly those parts that the filter accepts and that can be read, up to the first sample with an exception that is not
handled. Whether parts are filtered, all of them perhaps, changes nothing else. -/
theorem C97_slice (hs : Sized tar) {name : String} {a n : Nat} (h : a + n ≤ tarCount tar) (sel : Name → Name → PartRes) (raising : Bool) :
    ∃ sh r, mkShard (tarIndex tar) name a n = some sh ∧ rdOpen tar sh 0 0 = some r ∧
      ∀ xs b, ReadsF sel raising (fun _ => false) sh r xs b ↔ (xs, b) = untilBreak sel raising (samplesOf name a (sliceGroups tar a n)) := by
  obtain ⟨sh, r, h1, h2, h3⟩ := C39_slice hs (name := name) h
  refine ⟨sh, r, h1, h2, fun xs b => ?_⟩
  have := readsF_of_reads (sel := sel) (raising := raising) ((h3 _).2 rfl)
  constructor
  · intro hx
    obtain ⟨e1, e2⟩ := readsF_unique hx this
    rw [e1, e2]
  · intro hx
    rw [Prod.ext_iff] at hx
    obtain ⟨e1, e2⟩ := hx
    dsimp only at e1 e2
    rw [e1, e2]
    exact this

/-- **C97, no exceptions**: if nothing is fatal and errors are handled or do not occur, all samples are delivered. -/
theorem C97_all (hs : Sized tar) {name : String} {a n : Nat} (h : a + n ≤ tarCount tar) (sel : Name → Name → PartRes) (raising : Bool)
    (hf : ∀ b x, sel b x ≠ .fatal) (hr : raising = false ∨ ∀ b x, sel b x ≠ .fail) :
    ∃ sh r, mkShard (tarIndex tar) name a n = some sh ∧ rdOpen tar sh 0 0 = some r ∧
      ∀ xs b, ReadsF sel raising (fun _ => false) sh r xs b ↔ b = true ∧ xs = (samplesOf name a (sliceGroups tar a n)).map (onlyRead sel) := by
  obtain ⟨sh, r, h1, h2, h3⟩ := C97_slice hs (name := name) h sel raising
  refine ⟨sh, r, h1, h2, fun xs b => ?_⟩
  have hn : ∀ a : Smp (Raw B), ¬ Breaks sel raising a := by
    rintro a ⟨p, _, hp | ⟨h1, h2⟩⟩
    · exact hf _ _ hp
    · rcases hr with rfl | hr
      · cases h1
      · exact hr _ _ h2
  have hu : ∀ l : List (Smp (Raw B)), untilBreak sel raising l = (l.map (onlyRead sel), true) := by
    intro l
    induction l with
    | nil => rfl
    | cons a l ih => unfold untilBreak; rw [if_neg (hn a), ih]; rfl
  rw [h3, hu, Prod.mk.injEq]
  exact ⟨fun h => ⟨h.2, h.1⟩, fun h => ⟨h.2, h.1⟩⟩

/-- **C97, restoring**: restoring a sample by its key applies the same filter. -/
theorem C97_restore (hs : Sized tar) {name : String} {a n : Nat} {s : Smp (Raw B)}
    (hm : s ∈ samplesOf name a (sliceGroups tar a n)) (sel : Name → Name → PartRes) (raising : Bool) :
    restoreRawF sel raising tar (fun _ => false) name s.key = if Breaks sel raising s then none else some (onlyRead sel s) := by
  have h0 := C34_reader hs s hm
  unfold restoreRaw at h0
  unfold restoreRawF
  split at h0
  · rename_i n' i he
    rw [he]
    split at h0
    · cases h0
    · rename_i hn
      show (if n' ≠ name then none else _) = _
      rw [if_neg hn]
      rw [Option.bind_eq_some_iff] at h0
      obtain ⟨sh, h1, h0⟩ := h0
      rw [Option.bind_eq_some_iff] at h0
      obtain ⟨r, h2, h0⟩ := h0
      rw [h1, Option.bind_some, h2, Option.bind_some, C97_next]
      cases hr : readNext (fun _ => false) sh none r with
      | stop => rw [hr] at h0; cases h0
      | mismatch r' => rw [hr] at h0; cases h0
      | got b r' =>
        rw [hr] at h0
        cases h0
        dsimp only
        by_cases hb : Breaks sel raising s
        · rw [if_pos hb, if_pos hb]
        · rw [if_neg hb, if_neg hb]
  · cases h0

/-! ## An example: three samples; the images are not read, the text of the second one is damaged -/

def exFilterTar : List (Member Nat) :=
  [⟨512, true, "a.jpg".toList, 1⟩, ⟨512, true, "a.txt".toList, 2⟩, ⟨512, true, "b.txt".toList, 3⟩, ⟨512, true, "c.jpg".toList, 4⟩]

def exSel : Name → Name → PartRes := fun b x => if x = "jpg".toList then .reject else if b = "b".toList then .fail else .read

example : Sized exFilterTar ∧ 0 + 3 ≤ tarCount exFilterTar := by
  refine ⟨?_, by decide +kernel⟩
  intro m hm
  simp only [exFilterTar, List.mem_cons, List.not_mem_nil, or_false] at hm
  rcases hm with rfl | rfl | rfl | rfl <;> decide

/-- With a handler that ignores errors all three are delivered, the last one without any part; with one that raises, only the first. -/
example : (untilBreak exSel false (samplesOf "s" 0 (sliceGroups exFilterTar 0 3))).1.map (fun a => (a.content.base, a.content.parts)) =
      [("a".toList, [("txt".toList, 2)]), ("b".toList, []), ("c".toList, [])]
    ∧ (untilBreak exSel true (samplesOf "s" 0 (sliceGroups exFilterTar 0 3))).1.map (fun a => (a.content.base, a.content.parts)) =
      [("a".toList, [("txt".toList, 2)])] := by decide +kernel

end Verif.Wds
