import Verif.Wds.JoinProps

/-!
# Joined slices opened again

Source: /repo src/megatron/energon/flavors/webdataset/sample_loader.py:206-265 (`_read_multicolumn_shard` with the saved positions of all columns),
309-320, 640-656, 720-745 (what is saved and restored for the columns of an open slice).
-/

namespace Verif.Wds

open Verif.Stream

variable {B : Type}

/-- sample_loader.py:206-220: a column opened again: a reader is made for the slice with the saved number of samples and of bytes -/
def reopenCol (tar : List (Member B)) (c : Col B) : Option (Col B) := (rdOpen tar c.shard c.rd.offset c.rd.byteOff).map fun r => { c with rd := r }

/-- The columns but the first -/
def reopenCols : List (TarCol B) → List (Col B × Option (Smp (Raw B))) → Option (List (Col B × Option (Smp (Raw B))))
  | [], [] => some []
  | t :: ts, c :: cs => (reopenCol t.1 c.1).bind fun c => (reopenCols ts cs).map ((c, none) :: ·)
  | _, _ => none

/-- sample_loader.py:309-320, 206-220: the joined slice with its saved positions (one `ShardState` for each column); `groups` is a new list of `None`. -/
def reopen (t : TarCol B) (ts : List (TarCol B)) (m : Multi B) : Option (Multi B) :=
  (reopenCol t.1 m.prim).bind fun p => (reopenCols ts m.cols).map fun cs => ⟨p, cs⟩

/-- The states of a joined slice: opened at the beginning, after some samples, or opened again at the saved positions (any number of times). -/
inductive MReach (a n : Nat) (t : TarCol B) (ts : List (TarCol B)) : Multi B → Prop where
  | start {m : Multi B} : openJoined a n (t :: ts) = some m → MReach a n t ts m
  | next {m m' : Multi B} {row : Joined B} : MReach a n t ts m → multiNext true m = .got row m' → MReach a n t ts m'
  | again {m m' : Multi B} : MReach a n t ts m → reopen t ts m = some m' → MReach a n t ts m'

/-! ### Proofs -/

/-- The column belongs to this tar file and has been read in the usual way. -/
def ColOk (a n : Nat) (t : TarCol B) (c : Col B) : Prop := mkShard (tarIndex t.1) t.2 a n = some c.shard ∧ RdReach t.1 c.excl c.shard c.rd

/-- All of them -/
inductive ColsOk (a n : Nat) : List (TarCol B) → List (Col B × Option (Smp (Raw B))) → Prop where
  | nil : ColsOk a n [] []
  | cons {t : TarCol B} {ts : List (TarCol B)} {c : Col B × Option (Smp (Raw B))} {cs : List (Col B × Option (Smp (Raw B)))} :
      ColOk a n t c.1 → ColsOk a n ts cs → ColsOk a n (t :: ts) (c :: cs)

theorem ColsOk.read {a n : Nat} {base : Name} {ts : List (TarCol B)} {cs cs' : List (Col B × Option (Smp (Raw B)))} (h : ColsOk a n ts cs)
    (hr : readCols true base cs = some cs') : ColsOk a n ts cs' := by
  induction h generalizing cs' with
  | nil => cases hr; exact .nil
  | @cons t ts c cs hc _ ih =>
    obtain ⟨c, g⟩ := c
    unfold readCols at hr
    split at hr
    · cases hr
    · simp at hr
    · next b r h1 =>
      obtain ⟨cs1, h2, rfl⟩ := Option.map_eq_some_iff.1 hr
      exact .cons ⟨hc.1, .next hc.2 (readNext_base h1).2⟩ (ih h2)

theorem ColsOk.open {a n : Nat} {ts : List (TarCol B)} {cols : List (Col B)} (h : openCols a n ts = some cols) :
    ColsOk a n ts (cols.map fun c => (c, none)) := by
  induction ts generalizing cols with
  | nil => cases h; exact .nil
  | cons t ts ih =>
    unfold openCols at h
    obtain ⟨c, h1, h⟩ := Option.bind_eq_some_iff.1 h
    obtain ⟨cs, h2, rfl⟩ := Option.map_eq_some_iff.1 h
    refine .cons ?_ (ih h2)
    unfold openCol at h1
    obtain ⟨sh, h3, h1⟩ := Option.bind_eq_some_iff.1 h1
    obtain ⟨r, h4, rfl⟩ := Option.map_eq_some_iff.1 h1
    exact ⟨h3, .start h4⟩

theorem ColOk.again {a n : Nat} {t : TarCol B} {c c' : Col B} (h : ColOk a n t c) (hr : reopenCol t.1 c = some c') : ColOk a n t c' := by
  unfold reopenCol at hr
  obtain ⟨r, h4, rfl⟩ := Option.map_eq_some_iff.1 hr
  exact ⟨h.1, .again h.2 h4⟩

theorem ColsOk.again {a n : Nat} {ts : List (TarCol B)} {cs cs' : List (Col B × Option (Smp (Raw B)))} (h : ColsOk a n ts cs)
    (hr : reopenCols ts cs = some cs') : ColsOk a n ts cs' := by
  induction h generalizing cs' with
  | nil => cases hr; exact .nil
  | cons hc _ ih =>
    unfold reopenCols at hr
    obtain ⟨c, h1, hr⟩ := Option.bind_eq_some_iff.1 hr
    obtain ⟨cs, h2, rfl⟩ := Option.map_eq_some_iff.1 hr
    exact .cons (hc.again h1) (ih h2)

theorem MReach.ok {a n : Nat} {t : TarCol B} {ts : List (TarCol B)} {m : Multi B} (h : MReach a n t ts m) :
    ColOk a n t m.prim ∧ ColsOk a n ts m.cols := by
  induction h with
  | start h =>
    unfold openJoined at h
    obtain ⟨cols, h1, h⟩ := Option.bind_eq_some_iff.1 h
    have h2 := ColsOk.open h1
    split at h
    · cases h
    · cases h
      cases h2 with
      | cons h3 h4 => exact ⟨h3, h4⟩
  | next _ h3 ih =>
    obtain ⟨h1, h2⟩ := ih
    unfold multiNext at h3
    split at h3
    · split at h3 <;> cases h3
    · cases h3
    · next c r h4 =>
      split at h3
      · cases h3
      · next cs h5 =>
        cases h3
        exact ⟨⟨h1.1, .next h1.2 h4⟩, h2.read h5⟩
  | again _ h ih =>
    unfold reopen at h
    obtain ⟨p, h1, h⟩ := Option.bind_eq_some_iff.1 h
    obtain ⟨cs, h2, rfl⟩ := Option.map_eq_some_iff.1 h
    exact ⟨ih.1.again h1, ih.2.again h2⟩

/-- Two readers of the same slice that read the same. -/
def Alike (c c' : Col B) : Prop := c'.excl = c.excl ∧ c'.shard = c.shard ∧ ∀ xs, Reads c.excl c.shard c'.rd xs ↔ Reads c.excl c.shard c.rd xs

theorem Alike.symm {c c' : Col B} (h : Alike c c') : Alike c' c := by
  obtain ⟨h1, h2, h3⟩ := h
  refine ⟨h1.symm, h2.symm, fun xs => ?_⟩
  rw [h1, h2]
  exact (h3 xs).symm

theorem Alike.stop {c c' : Col B} (h : Alike c c') (hs : readNext c.excl c.shard none c.rd = .stop) : readNext c'.excl c'.shard none c'.rd = .stop := by
  rw [h.1, h.2.1]
  exact reads_nil ((h.2.2 []).2 (.stop hs))

theorem Alike.got {c c' : Col B} (h : Alike c c') {a : Smp (Raw B)} {r : Rd B} (hs : readNext c.excl c.shard none c.rd = .got a r) :
    ∃ r', readNext c'.excl c'.shard none c'.rd = .got a r' ∧ Alike { c with rd := r } { c' with rd := r' } := by
  have h1 : Reads c.excl c.shard r (Wds.samplesOf c.shard.name (r.offset + c.shard.offset) (groups (pend c.excl r))) := reads_iff.2 rfl
  obtain ⟨r', h2, h3⟩ := reads_cons ((h.2.2 _).2 (.next hs h1))
  refine ⟨r', by rw [h.1, h.2.1]; exact h2, h.1, h.2.1, fun xs => ?_⟩
  constructor
  · intro h4
    have := (h.2.2 _).1 (.next h2 h4)
    obtain ⟨r1, h5, h6⟩ := reads_cons this
    rw [hs] at h5
    cases h5
    exact h6
  · intro h4
    have := (h.2.2 _).2 (.next hs h4)
    obtain ⟨r1, h5, h6⟩ := reads_cons this
    rw [h2] at h5
    cases h5
    exact h6

inductive AlikeCols : List (Col B × Option (Smp (Raw B))) → List (Col B × Option (Smp (Raw B))) → Prop where
  | nil : AlikeCols [] []
  | cons {c c' : Col B × Option (Smp (Raw B))} {cs cs' : List (Col B × Option (Smp (Raw B)))} :
      Alike c.1 c'.1 → AlikeCols cs cs' → AlikeCols (c :: cs) (c' :: cs')

theorem AlikeCols.symm {cs cs' : List (Col B × Option (Smp (Raw B)))} (h : AlikeCols cs cs') : AlikeCols cs' cs := by
  induction h with
  | nil => exact .nil
  | cons h _ ih => exact .cons h.symm ih

theorem AlikeCols.read {base : Name} {cs cs' cs1 : List (Col B × Option (Smp (Raw B)))} (h : AlikeCols cs cs') (hr : readCols true base cs = some cs1) :
    ∃ cs2, readCols true base cs' = some cs2 ∧ AlikeCols cs1 cs2 ∧ cs2.map (·.2) = cs1.map (·.2) := by
  induction h generalizing cs1 with
  | nil => cases hr; exact ⟨[], rfl, .nil, rfl⟩
  | @cons c c' cs cs' hc _ ih =>
    obtain ⟨c, g⟩ := c
    obtain ⟨c', g'⟩ := c'
    unfold readCols at hr
    split at hr
    · cases hr
    · simp at hr
    · next b r h1 =>
      obtain ⟨cs3, h2, rfl⟩ := Option.map_eq_some_iff.1 hr
      obtain ⟨h3, h4⟩ := readNext_base h1
      obtain ⟨r', h5, h6⟩ := Alike.got hc h4
      obtain ⟨cs2, h7, h8, h9⟩ := ih h2
      rcases h3 with h3 | h3
      · cases h3
      · have := readNext_want h5
        have hb : base = b.content.base := Option.some.inj h3
        rw [← hb] at this
        refine ⟨({ c' with rd := r' }, some b) :: cs2, ?_, .cons h6 h8, by simp [h9]⟩
        unfold readCols
        rw [this]
        simp only
        rw [h7]
        rfl

theorem AlikeCols.stops {cs cs' : List (Col B × Option (Smp (Raw B)))} (h : AlikeCols cs cs')
    (hr : cs.all (fun c => match readNext c.1.excl c.1.shard none c.1.rd with | .stop => true | _ => false) = true) :
    cs'.all (fun c => match readNext c.1.excl c.1.shard none c.1.rd with | .stop => true | _ => false) = true := by
  induction h with
  | nil => rfl
  | @cons c c' cs cs' hc _ ih =>
    rw [List.all_cons, Bool.and_eq_true] at hr ⊢
    refine ⟨?_, ih hr.2⟩
    have h1 := hr.1
    split at h1
    · next h2 => rw [hc.stop h2]
    · cases h1

theorem MAll.alike {m m' : Multi B} {rows : List (Joined B)} (h : MAll true m rows) (hp : Alike m.prim m'.prim) (hc : AlikeCols m.cols m'.cols) :
    MAll true m' rows := by
  induction h generalizing m' with
  | stop h =>
    refine .stop ?_
    unfold multiNext at h ⊢
    split at h
    · next h1 =>
      rw [hp.stop h1]
      simp only
      split at h
      · next h2 => exact if_pos (hc.stops h2)
      · cases h
    · cases h
    · split at h <;> cases h
  | next h _ ih =>
    unfold multiNext at h
    split at h
    · split at h <;> cases h
    · cases h
    · next b r h1 =>
      split at h
      · cases h
      · next cs h2 =>
        cases h
        obtain ⟨r', h3, h4⟩ := hp.got h1
        obtain ⟨cs', h5, h6, h7⟩ := hc.read h2
        refine .next (m' := ⟨{ m'.prim with rd := r' }, cs'⟩) ?_ (ih h4 h6)
        unfold multiNext
        rw [h3]
        simp only
        rw [h5]
        simp only [h7]

theorem ColOk.reopen {a n : Nat} {t : TarCol B} (hs : Sized t.1) {c : Col B} (h : ColOk a n t c) : ∃ c', reopenCol t.1 c = some c' ∧ Alike c c' := by
  obtain ⟨r', h1, _, h2⟩ := C33_reader_resumes hs h.1 h.2
  exact ⟨{ c with rd := r' }, by unfold reopenCol; rw [h1]; rfl, rfl, rfl, h2⟩

theorem ColsOk.reopen {a n : Nat} {ts : List (TarCol B)} (hs : ∀ u ∈ ts, Sized u.1) {cs : List (Col B × Option (Smp (Raw B)))} (h : ColsOk a n ts cs) :
    ∃ cs', reopenCols ts cs = some cs' ∧ AlikeCols cs cs' := by
  induction h with
  | nil => exact ⟨[], rfl, .nil⟩
  | @cons t ts c cs hc _ ih =>
    obtain ⟨c', h1, h2⟩ := hc.reopen (hs t (List.mem_cons_self ..))
    obtain ⟨cs', h3, h4⟩ := ih fun u hu => hs u (List.mem_cons_of_mem _ hu)
    refine ⟨(c', none) :: cs', ?_, .cons h2 h4⟩
    unfold reopenCols
    rw [h1, h3]
    rfl

/-! ### The theorem -/

/-- **C108, slices**: a slice of a joined dataset that is opened again at the positions saved for its columns, at any point and any number of times, delivers exactly the joined
samples that are left: no column gets out of step. For all tar files, whether their samples agree or not: if a disagreement is still to come it is found, too. (This is why the model of the
loader keeps one number for an open slice.) -/
theorem C108_slice_resumes {a n : Nat} {t : TarCol B} {ts : List (TarCol B)} (hs : ∀ u ∈ t :: ts, Sized u.1) {m : Multi B} (h : MReach a n t ts m) :
    ∃ m', reopen t ts m = some m' ∧ ∀ rows, MAll true m' rows ↔ MAll true m rows := by
  obtain ⟨h1, h2⟩ := h.ok
  obtain ⟨p, h3, h4⟩ := h1.reopen (hs t (List.mem_cons_self ..))
  obtain ⟨cs, h5, h6⟩ := h2.reopen fun u hu => hs u (List.mem_cons_of_mem _ hu)
  exact ⟨⟨p, cs⟩, by unfold Wds.reopen; rw [h3, h5]; rfl, fun rows => ⟨fun h => h.alike h4.symm h6.symm, fun h => h.alike h4 h6⟩⟩

end Verif.Wds
