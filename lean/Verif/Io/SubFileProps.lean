import Verif.Io.SubFileModel

/-!
# C40: a range of bytes of a file as a file
-/

namespace Verif.Io

variable {β : Type}

/-- The calls stay inside of the file: reads with `n ≥ -1` and seeks to positions in the file. -/
def InRange : File β → List FOp → Prop
  | _, [] => True
  | f, .read n :: l => -1 ≤ n ∧ InRange (f.op (.read n)).2 l
  | f, .seek o w :: l =>
    (∃ t, seekTo f.pos f.content.length o w = some t ∧ 0 ≤ t ∧ t ≤ f.content.length) ∧ InRange (f.op (.seek o w)).2 l
  | f, .tell :: l => InRange f l

/-- A position, or the end of the file it lies beyond -/
def within (t : Int) (size : Nat) : Nat := if t < 0 then 0 else if (size : Int) < t then size else t.toNat

theorem clamp_within (t : Int) (size : Nat) : clamp t size = within t size := by unfold clamp within; repeat (first | omega | split)

theorem target_seekTo (pos size : Nat) (o w : Int) : target pos size o w = seekTo pos size o w := by
  unfold target
  by_cases h0 : w = 0
  · subst h0; rfl
  · by_cases h1 : w = 1
    · subst h1; rfl
    · by_cases h2 : w = 2
      · subst h2; rfl
      · rw [if_neg h0, if_neg h1, if_neg h2]
        unfold seekTo
        split <;> first | contradiction | rfl

/-- A file whose seeks stop at its ends. -/
def File.opClamped (f : File β) : FOp → FRes β × File β
  | .seek o w =>
    match seekTo f.pos f.content.length o w with
    | some t => (.pos (within t f.content.length), { f with pos := within t f.content.length })
    | none => (.error, f)
  | op => f.op op

def runClamped : File β → List FOp → List (FRes β)
  | _, [] => []
  | f, o :: l => (f.opClamped o).1 :: runClamped (f.opClamped o).2 l

/-- The bytes of the range -/
def rangeOf (content : List β) (offset size : Nat) : List β := (content.drop offset).take size

/-- The sub file is at the same place as the file with the bytes of the range. -/
def Same (content : List β) (offset size : Nat) (s : Sub β) (f : File β) : Prop :=
  f.content = rangeOf content offset size ∧ s.stream.content = content ∧ s.offset = offset ∧ s.size = size ∧ s.pos = f.pos ∧
    s.stream.pos = offset + f.pos ∧ f.pos ≤ size

theorem rangeOf_length {content : List β} {offset size : Nat} (h : offset + size ≤ content.length) :
    (rangeOf content offset size).length = size := by
  unfold rangeOf
  rw [List.length_take, List.length_drop]
  omega

theorem same_read {content : List β} {offset size : Nat} {s : Sub β} {f : File β} (hc : offset + size ≤ content.length)
    (h : Same content offset size s f) {n : Int} (hn : -1 ≤ n) :
    (s.op (.read n)).1 = (f.op (.read n)).1 ∧ Same content offset size (s.op (.read n)).2 (f.op (.read n)).2 := by
  obtain ⟨h1, h2, rfl, rfl, h5, h6, h7⟩ := h
  have hl := rangeOf_length hc
  -- the bytes to be read
  have hpeek : ∀ k : Nat, k = (if n = -1 then s.size - f.pos else min n.toNat (s.size - f.pos)) →
      f.peek n = (content.drop (s.offset + f.pos)).take k := by
    intro k hk
    have e : f.content.drop f.pos = (content.drop (s.offset + f.pos)).take (s.size - f.pos) := by
      rw [h1]
      unfold rangeOf
      rw [List.drop_take, List.drop_drop]
    unfold File.peek
    rw [e]
    by_cases hm : n = -1
    · rw [if_pos (by omega), hk, if_pos hm]
    · rw [if_neg (by omega), hk, if_neg hm, List.take_take]
  have hk' : (if n = -1 then ((s.size : Int) - s.pos) else min n (s.size - s.pos)) =
      ((if n = -1 then s.size - f.pos else min n.toNat (s.size - f.pos) : Nat) : Int) := by
    rw [h5]
    split <;> omega
  generalize hk : (if n = -1 then s.size - f.pos else min n.toNat (s.size - f.pos)) = k at hk'
  have hp := hpeek k hk.symm
  have hkle : k ≤ s.size - f.pos := by rw [← hk]; split <;> omega
  have hlen : ((content.drop (s.offset + f.pos)).take k).length = k := by
    rw [List.length_take, List.length_drop]; omega
  simp only [Sub.op, File.op, hk', hp]
  by_cases hz : k = 0
  · subst hz
    rw [if_pos (by simp)]
    refine ⟨by simp, h1, h2, rfl, rfl, ?_, ?_, ?_⟩ <;> simp [h5, h6, h7]
  · rw [if_neg (by omega)]
    have hs : s.stream.peek (k : Int) = (content.drop (s.offset + f.pos)).take k := by
      unfold File.peek
      rw [if_neg (by omega), h2, h6]
      rfl
    simp only [File.read, hs]
    refine ⟨trivial, h1, h2, rfl, rfl, ?_, ?_, ?_⟩
    · simp [h5]
    · simp only [hlen, h6]; omega
    · simp only [hlen]; omega

theorem within_le (t : Int) (size : Nat) : within t size ≤ size := by unfold within; repeat (first | omega | split)

theorem same_seek {content : List β} {offset size : Nat} {s : Sub β} {f : File β} (hc : offset + size ≤ content.length)
    (h : Same content offset size s f) (o w : Int) :
    (s.op (.seek o w)).1 = (f.opClamped (.seek o w)).1 ∧ Same content offset size (s.op (.seek o w)).2 (f.opClamped (.seek o w)).2 := by
  obtain ⟨h1, h2, rfl, rfl, h5, h6, h7⟩ := h
  have hl : f.content.length = s.size := by rw [h1]; exact rangeOf_length hc
  simp only [Sub.op, File.opClamped, hl, h5, target_seekTo, clamp_within]
  cases ht : seekTo f.pos s.size o w with
  | none => exact ⟨rfl, h1, h2, rfl, rfl, h5, h6, h7⟩
  | some t => exact ⟨rfl, h1, h2, rfl, rfl, rfl, rfl, within_le ..⟩

/-- The calls read with `n ≥ -1`. -/
def ReadsOk (ops : List FOp) : Prop := ∀ n, FOp.read n ∈ ops → -1 ≤ n

theorem run_same {content : List β} {offset size : Nat} (hc : offset + size ≤ content.length) {ops : List FOp} (hr : ReadsOk ops)
    {s : Sub β} {f : File β} (h : Same content offset size s f) : runSub s ops = runClamped f ops := by
  induction ops generalizing s f with
  | nil => rfl
  | cons o ops ih =>
    have hr' : ReadsOk ops := fun n hn => hr n (List.mem_cons_of_mem _ hn)
    unfold runSub runClamped
    cases o with
    | read n =>
      obtain ⟨h1, h2⟩ := same_read hc h (hr n (List.mem_cons_self ..))
      exact List.cons_eq_cons.2 ⟨h1, ih hr' h2⟩
    | seek o w =>
      obtain ⟨h1, h2⟩ := same_seek hc h o w
      exact List.cons_eq_cons.2 ⟨h1, ih hr' h2⟩
    | tell => exact List.cons_eq_cons.2 ⟨by simp only [Sub.op, File.opClamped, File.op, h.2.2.2.2.1], ih hr' h⟩

theorem open_same {content : List β} {offset size : Nat} (p : Nat) :
    Same content offset size (Sub.open ⟨content, p⟩ offset size) ⟨rangeOf content offset size, 0⟩ :=
  ⟨rfl, rfl, rfl, rfl, rfl, rfl, Nat.zero_le _⟩

/-- **C40, with seeks that stop at the ends**: every sequence of calls on a range of bytes inside the file (reading with `n ≥ -1`) gives the results of a file with just
these bytes whose seeks stop at its beginning and its end. -/
theorem C40_clamped {content : List β} {offset size p : Nat} (hc : offset + size ≤ content.length) {ops : List FOp} (hr : ReadsOk ops) :
    runSub (Sub.open ⟨content, p⟩ offset size) ops = runClamped ⟨rangeOf content offset size, 0⟩ ops :=
  run_same hc hr (open_same p)

theorem inRange_clamped {f : File β} {ops : List FOp} (h : InRange f ops) : runClamped f ops = runFile f ops ∧ ReadsOk ops := by
  induction ops generalizing f with
  | nil => exact ⟨rfl, fun n hn => by cases hn⟩
  | cons o ops ih =>
    unfold runClamped runFile
    cases o with
    | read n =>
      obtain ⟨h1, h2⟩ := ih h.2
      refine ⟨List.cons_eq_cons.2 ⟨rfl, h1⟩, fun m hm => ?_⟩
      rcases List.mem_cons.1 hm with h3 | h3
      · cases h3; exact h.1
      · exact h2 m h3
    | tell =>
      obtain ⟨h1, h2⟩ := ih (f := f) h
      refine ⟨List.cons_eq_cons.2 ⟨rfl, h1⟩, fun m hm => ?_⟩
      rcases List.mem_cons.1 hm with h3 | h3
      · cases h3
      · exact h2 m h3
    | seek o w =>
      obtain ⟨⟨t, ht, h3, h4⟩, h5⟩ := h
      have e : f.opClamped (.seek o w) = f.op (.seek o w) := by
        simp only [File.opClamped, File.op, ht]
        rw [if_neg (by omega)]
        have : within t f.content.length = t.toNat := by unfold within; rw [if_neg (by omega), if_neg (by omega)]
        rw [this]
      obtain ⟨h1, h2⟩ := ih h5
      rw [e]
      refine ⟨List.cons_eq_cons.2 ⟨rfl, h1⟩, fun m hm => ?_⟩
      rcases List.mem_cons.1 hm with h3 | h3
      · cases h3
      · exact h2 m h3

/-- **C40, the part that holds**: every sequence of calls that stays in the file gives the same results as on a file with just these bytes. What is missing: seeks
beyond the ends and reads with `n < -1` (`C40_violated_seek`, `C40_violated_read`). -/
theorem C40_sub_file_partial {content : List β} {offset size p : Nat} (hc : offset + size ≤ content.length) {ops : List FOp}
    (h : InRange ⟨rangeOf content offset size, 0⟩ ops) :
    runSub (Sub.open ⟨content, p⟩ offset size) ops = runFile ⟨rangeOf content offset size, 0⟩ ops := by
  obtain ⟨h1, h2⟩ := inRange_clamped h
  rw [← h1]
  exact C40_clamped hc h2

/-- Whatever is called with `n ≥ -1`, no bytes outside of the range are returned. -/
theorem C40_only_range {content : List β} {offset size p : Nat} (hc : offset + size ≤ content.length) {ops : List FOp} (hr : ReadsOk ops)
    {l : List β} (h : FRes.data l ∈ runSub (Sub.open ⟨content, p⟩ offset size) ops) : ∀ b ∈ l, b ∈ rangeOf content offset size := by
  rw [C40_clamped hc hr] at h
  clear hc hr
  have key : ∀ (ops : List FOp) (f : File β), FRes.data l ∈ runClamped f ops → ∀ b ∈ l, b ∈ f.content := by
    intro ops
    induction ops with
    | nil => intro f h; cases h
    | cons o ops ih =>
      intro f h
      have hc : (f.opClamped o).2.content = f.content := by
        cases o with
        | read n => rfl
        | tell => rfl
        | seek o w =>
          unfold File.opClamped
          simp only
          split <;> rfl
      rcases List.mem_cons.1 h with h | h
      · cases o with
        | read n =>
          simp only [File.opClamped, File.op, FRes.data.injEq] at h
          subst h
          intro b hb
          unfold File.peek at hb
          split at hb
          · exact List.mem_of_mem_drop hb
          · exact List.mem_of_mem_drop (List.mem_of_mem_take hb)
        | tell => cases h
        | seek o w =>
          unfold File.opClamped at h
          simp only at h
          split at h <;> cases h
      · have := ih _ h
        rwa [hc] at this
  exact key ops _ h

/-- **C40 is violated** by seeks behind the end: the position reported is the end. -/
theorem C40_violated_seek :
    runSub (Sub.open ⟨[1, 2, 3, 4, 5], 0⟩ 1 2) [.seek 4 0, .tell, .seek (-1) 1, .read (-1)] ≠
      runFile ⟨rangeOf [1, 2, 3, 4, 5] 1 2, 0⟩ [.seek 4 0, .tell, .seek (-1) 1, .read (-1)] := by decide +kernel

/-- **C40 is violated** by reads with `n < -1`, which mean "all" for Python files: bytes behind the range are returned. -/
theorem C40_violated_read :
    runSub (Sub.open ⟨[1, 2, 3, 4, 5], 0⟩ 1 2) [.read (-2)] = [.data [2, 3, 4, 5]] ∧
      runFile ⟨rangeOf [1, 2, 3, 4, 5] 1 2, 0⟩ [.read (-2)] = [.data [2, 3]] := by decide +kernel

/-- The hypotheses are satisfiable. -/
example : InRange ⟨rangeOf [1, 2, 3, 4, 5, 6] 1 4, 0⟩ [.read 2, .tell, .seek (-1) 1, .read (-1), .seek (-4) 2, .read 9] := by
  refine ⟨by decide, ⟨1, by decide +kernel, by decide, by decide +kernel⟩, by decide, ⟨0, by decide +kernel, by decide, by decide +kernel⟩, by decide, trivial⟩

end Verif.Io
