import Mathlib.Data.List.Forall2
import Verif.Wds.ExcludeProps

/-!
# Joined columns (C54)
-/

namespace Verif.Wds

open Verif.Stream

variable {B : Type} {excl : Name → Bool} {sh : Shard} {r r' : Rd B}

/-- A complete reading of a joined slice: it ends normally. -/
inductive MAll (raising : Bool) : Multi B → List (Joined B) → Prop where
  | stop {m : Multi B} : multiNext raising m = .stop → MAll raising m []
  | next {m : Multi B} {a : Joined B} {m' : Multi B} {xs : List (Joined B)} :
      multiNext raising m = .got a m' → MAll raising m' xs → MAll raising m (a :: xs)

theorem MAll.det {raising : Bool} {m : Multi B} {xs ys : List (Joined B)} (h : MAll raising m xs) (h' : MAll raising m ys) : xs = ys := by
  induction h generalizing ys with
  | stop h =>
    cases h' with
    | stop _ => rfl
    | next h' _ => rw [h] at h'; cases h'
  | next h _ ih =>
    cases h' with
    | stop h' => rw [h] at h'; cases h'
    | next h' hr =>
      rw [h] at h'
      cases h'
      rw [ih hr]

/-- The samples number `k` of all columns -/
def rowAt (k : Nat) (yss : List (List (Smp (Raw B)))) : Joined B := yss.map (·[k]?)

theorem readNext_base {want : Option Name} {a : Smp (Raw B)} (h : readNext excl sh want r = .got a r') :
    (want = none ∨ want = some a.content.base) ∧ readNext excl sh none r = .got a r' := by
  unfold readNext at h ⊢
  split at h
  · cases h
  · next c rest hc =>
    simp only
    split at h
    · cases h
    · next hw =>
      have hw' : want = none ∨ want = some c.base := by
        cases want with
        | none => left; rfl
        | some w => right; simpa using hw
      rw [if_neg (by simp)]
      split at h
      all_goals
        next hg =>
          simp only [Rn.got.injEq] at h
          obtain ⟨rfl, rfl⟩ := h
          simp only
          exact ⟨hw', trivial⟩

theorem readNext_want {a : Smp (Raw B)} (h : readNext excl sh none r = .got a r') :
    readNext excl sh (some a.content.base) r = .got a r' := by
  unfold readNext at h ⊢
  split at h
  · cases h
  · next c rest hc =>
    simp only
    rw [if_neg (by simp)] at h
    split at h
    all_goals
      next hg =>
        simp only [Rn.got.injEq] at h
        obtain ⟨rfl, rfl⟩ := h
        simp

theorem readCols_raising {base : Name} {cols cols' : List (Col B × Option (Smp (Raw B)))} (h : readCols true base cols = some cols') :
    List.Forall₂ (fun c c' => ∃ a, c'.2 = some a ∧ a.content.base = base ∧
      readNext c.1.excl c.1.shard none c.1.rd = .got a c'.1.rd ∧ c'.1.excl = c.1.excl ∧ c'.1.shard = c.1.shard) cols cols' := by
  induction cols generalizing cols' with
  | nil =>
    simp only [readCols, Option.some.injEq] at h
    subst h
    exact .nil
  | cons c cols ih =>
    obtain ⟨c, g⟩ := c
    unfold readCols at h
    split at h
    · cases h
    · simp at h
    · next a r hr =>
      rw [Option.map_eq_some_iff] at h
      obtain ⟨l, hl, rfl⟩ := h
      obtain ⟨h1, h2⟩ := readNext_base hr
      refine .cons ⟨a, rfl, ?_, h2, rfl, rfl⟩ (ih hl)
      rcases h1 with h1 | h1
      · cases h1
      · exact (Option.some.inj h1).symm

/-- **C54**: if errors raise (the default handler), each joined sample consists of exactly one sample of each column, and all of them
have the same base name. -/
theorem C54_same_key {m : Multi B} {xs : List (Joined B)} (h : MReads true m xs) :
    ∀ row ∈ xs, row.length = m.cols.length + 1 ∧ ∃ base, ∀ g ∈ row, ∃ a, g = some a ∧ a.content.base = base := by
  induction h with
  | nil => intro row hr; cases hr
  | @next m row m' xs hn hmr ih =>
    clear hmr
    unfold multiNext at hn
    split at hn
    · split at hn <;> cases hn
    · cases hn
    · next a r hr =>
      split at hn
      · cases hn
      · next cols hc =>
        simp only [Mn.got.injEq] at hn
        obtain ⟨rfl, rfl⟩ := hn
        have hf := readCols_raising hc
        intro row hrow
        rcases List.mem_cons.1 hrow with rfl | hrow
        · refine ⟨by simp [hf.length_eq], a.content.base, fun g hg => ?_⟩
          rcases List.mem_cons.1 hg with rfl | hg
          · exact ⟨a, rfl, rfl⟩
          · obtain ⟨c', hc', rfl⟩ := List.mem_map.1 hg
            clear hr hg hrow ih hc
            generalize m.cols = l at hf
            induction hf with
            | nil => cases hc'
            | cons h _ ih2 =>
              rcases List.mem_cons.1 hc' with rfl | hc'
              · obtain ⟨a', h1, h2, _⟩ := h
                exact ⟨a', h1, h2⟩
              · exact ih2 hc' (List.mem_cons_of_mem _ (List.mem_map.2 ⟨c', hc', rfl⟩))
        · have := ih row hrow
          simpa [hf.length_eq] using this

/-- What is left to read of every column -/
def ColsRead (cols : List (Col B × Option (Smp (Raw B)))) (yss : List (List (Smp (Raw B)))) : Prop :=
  List.Forall₂ (fun c ys => Reads c.1.excl c.1.shard c.1.rd ys) cols yss

theorem reads_cons {a : Smp (Raw B)} {ys : List (Smp (Raw B))} (h : Reads excl sh r (a :: ys)) :
    ∃ r', readNext excl sh none r = .got a r' ∧ Reads excl sh r' ys := by
  cases h with
  | next h1 h2 => exact ⟨_, h1, h2⟩

theorem reads_nil (h : Reads excl sh r []) : readNext excl sh none r = .stop := by
  cases h with
  | stop h => exact h

theorem readCols_heads {raising : Bool} {base : Name} {cols : List (Col B × Option (Smp (Raw B)))} {yss : List (List (Smp (Raw B)))}
    (h : ColsRead cols yss) (hb : ∀ ys ∈ yss, ∃ a t, ys = a :: t ∧ a.content.base = base) :
    ∃ cols', readCols raising base cols = some cols' ∧ cols'.map (·.2) = yss.map (·.head?) ∧ ColsRead cols' (yss.map List.tail) := by
  induction h with
  | nil => exact ⟨[], rfl, rfl, .nil⟩
  | @cons c ys cols yss hr hrest ih =>
    obtain ⟨c, g⟩ := c
    obtain ⟨a, t, rfl, rfl⟩ := hb _ (List.mem_cons_self ..)
    obtain ⟨cols', h1, h2, h3⟩ := ih (fun ys hy => hb ys (List.mem_cons_of_mem _ hy))
    obtain ⟨r', h4, h5⟩ := reads_cons hr
    refine ⟨({ c with rd := r' }, some a) :: cols', ?_, by simp [h2], .cons h5 h3⟩
    unfold readCols
    simp [readNext_want h4, h1]

/-- **C54, completeness**: if all columns have the same base names in the same order, every sample is delivered, joined with its
counterparts, in order (whatever the handler), and the reading ends normally. -/
theorem C54_all {raising : Bool} {m : Multi B} {ys : List (Smp (Raw B))} {yss : List (List (Smp (Raw B)))}
    (hp : Reads m.prim.excl m.prim.shard m.prim.rd ys) (hc : ColsRead m.cols yss)
    (hb : ∀ zs ∈ yss, zs.map (·.content.base) = ys.map (·.content.base)) :
    MAll raising m ((List.range ys.length).map fun k => rowAt k (ys :: yss)) := by
  induction ys generalizing m yss with
  | nil =>
    refine .stop ?_
    unfold multiNext
    rw [reads_nil hp]
    simp only
    rw [if_pos]
    rw [List.all_eq_true]
    intro c hcm
    clear hp
    generalize m.cols = cols at hc hcm
    induction hc with
    | nil => cases hcm
    | @cons c' zs cols yss hr _ ih =>
      have hz : zs = [] := by simpa using hb zs (List.mem_cons_self ..)
      subst hz
      rcases List.mem_cons.1 hcm with rfl | hcm
      · rw [reads_nil hr]
      · exact ih (fun zs hz => hb zs (List.mem_cons_of_mem _ hz)) hcm
  | cons a ys ih =>
    obtain ⟨r', h1, h2⟩ := reads_cons hp
    have hh : ∀ zs ∈ yss, ∃ b t, zs = b :: t ∧ b.content.base = a.content.base := by
      intro zs hz
      have := hb zs hz
      cases zs with
      | nil => simp at this
      | cons b t => exact ⟨b, t, rfl, by simpa using (List.cons.inj this).1⟩
    obtain ⟨cols', h3, h4, h5⟩ := readCols_heads (raising := raising) hc hh
    rw [List.length_cons, List.range_succ_eq_map, List.map_cons, List.map_map]
    have hrow : rowAt 0 ((a :: ys) :: yss) = some a :: cols'.map (·.2) := by
      simp only [rowAt, List.map_cons, List.getElem?_cons_zero, h4]
      congr 1
      apply List.map_congr_left
      intro zs hz
      exact List.head?_eq_getElem?.symm
    have hrows : (fun k => rowAt k ((a :: ys) :: yss)) ∘ Nat.succ = fun k => rowAt k (ys :: yss.map List.tail) := by
      funext k
      simp only [Function.comp, rowAt, List.map_cons, List.map_map, Nat.succ_eq_add_one, List.getElem?_cons_succ]
      congr 1
      apply List.map_congr_left
      intro zs _
      simp [List.getElem?_tail]
    rw [hrow, hrows]
    refine .next ?_ (ih (m := ⟨{ m.prim with rd := r' }, cols'⟩) h2 h5 ?_)
    · unfold multiNext
      rw [h1]
      simp only
      rw [h3]
    · intro zs hz
      obtain ⟨zs', hz', rfl⟩ := List.mem_map.1 hz
      have := hb zs' hz'
      obtain ⟨b, t, rfl, _⟩ := hh zs' hz'
      simpa using (List.cons.inj this).2

/-- **C54, detection**: if errors raise (the default handler) and a slice is read to its end without an error, then all columns have the same base names
in the same order: a sample that is missing, additional or out of place in one of the columns, also at the very end, never goes unnoticed. -/
theorem C54_detects {m : Multi B} {xs : List (Joined B)} (h : MAll true m xs) {ys : List (Smp (Raw B))} {yss : List (List (Smp (Raw B)))}
    (hp : Reads m.prim.excl m.prim.shard m.prim.rd ys) (hc : ColsRead m.cols yss) :
    ∀ zs ∈ yss, zs.map (·.content.base) = ys.map (·.content.base) := by
  induction h generalizing ys yss with
  | @stop m h =>
    unfold multiNext at h
    split at h
    · next hr =>
      have hy : ys = [] := by
        cases hp with
        | stop _ => rfl
        | next h1 _ => rw [hr] at h1; cases h1
      subst hy
      split at h
      · next hall =>
        rw [List.all_eq_true] at hall
        clear hp h hr
        generalize m.cols = cols at hc hall
        induction hc with
        | nil => intro zs hz; cases hz
        | @cons c zs cols yss hr _ ih =>
          intro zs' hz'
          rcases List.mem_cons.1 hz' with rfl | hz'
          · have h1 := hall c (by simp)
            cases hr with
            | stop _ => rfl
            | next h2 _ => rw [h2] at h1; cases h1
          · exact ih (fun c hc => hall c (by simp [hc])) zs' hz'
      · cases h
    · cases h
    · split at h <;> cases h
  | @next m row m' xs hn _ ih =>
    unfold multiNext at hn
    split at hn
    · split at hn <;> cases hn
    · cases hn
    · next a r hr =>
      split at hn
      · cases hn
      · next cols hcols =>
        simp only [Mn.got.injEq] at hn
        obtain ⟨-, rfl⟩ := hn
        cases hp with
        | stop h1 => rw [hr] at h1; cases h1
        | @next _ a' r' ys' h1 h2 =>
          rw [hr] at h1
          cases h1
          have hf := readCols_raising hcols
          -- every column has this sample next
          have key : ∀ (l l' : List (Col B × Option (Smp (Raw B)))) (yss : List (List (Smp (Raw B)))),
              List.Forall₂ (fun c c' => ∃ b, c'.2 = some b ∧ b.content.base = a.content.base ∧
                readNext c.1.excl c.1.shard none c.1.rd = .got b c'.1.rd ∧ c'.1.excl = c.1.excl ∧ c'.1.shard = c.1.shard) l l' →
              ColsRead l yss → ColsRead l' (yss.map List.tail) ∧ ∀ zs ∈ yss, ∃ b t, zs = b :: t ∧ b.content.base = a.content.base := by
            intro l l' yss hf
            induction hf generalizing yss with
            | nil => intro hc; cases hc; exact ⟨.nil, by simp⟩
            | @cons c c' l l' h3 _ ih2 =>
              intro hc
              cases hc with
              | @cons _ zs _ yss hz hrest =>
                obtain ⟨b, -, hb, hb2, he, hs⟩ := h3
                obtain ⟨k1, k2⟩ := ih2 _ hrest
                cases hz with
                | stop h4 => rw [hb2] at h4; cases h4
                | @next _ b' r'' t h4 h5 =>
                  rw [hb2] at h4
                  cases h4
                  refine ⟨.cons ?_ k1, ?_⟩
                  · rw [he, hs]; exact h5
                  · intro zs hz
                    rcases List.mem_cons.1 hz with rfl | hz
                    · exact ⟨_, _, rfl, hb⟩
                    · exact k2 zs hz
          obtain ⟨k1, k2⟩ := key _ _ _ hf hc
          have h3 := ih (ys := ys') h2 k1
          intro zs hz
          obtain ⟨b, t, rfl, hb⟩ := k2 zs hz
          have := h3 t (List.mem_map.2 ⟨b :: t, hz, rfl⟩)
          simp [hb, this]

/-- One column of a joined dataset: the tar file and the name of the shard -/
abbrev TarCol (B : Type) := List (Member B) × String

/-- A column opened at a slice (nothing excluded): single_shard_reader.py:47-108 -/
def openCol (a n : Nat) (t : TarCol B) : Option (Col B) :=
  (mkShard (tarIndex t.1) t.2 a n).bind fun sh => (rdOpen t.1 sh 0 0).map fun r => ⟨fun _ => false, sh, r⟩

/-- All columns opened -/
def openCols (a n : Nat) : List (TarCol B) → Option (List (Col B))
  | [] => some []
  | t :: ts => (openCol a n t).bind fun c => (openCols a n ts).map (c :: ·)

/-- sample_loader.py:198-220: the columns opened at a slice; the first is the primary one. -/
def openJoined (a n : Nat) (ts : List (TarCol B)) : Option (Multi B) :=
  (openCols a n ts).bind fun
    | [] => none
    | p :: cols => some (multiOpen p cols)

/-- The joined samples a slice must give: the samples with the same number. -/
def joinedRow (ts : List (TarCol B)) (a n k : Nat) : Joined B :=
  rowAt k (ts.map fun t => samplesOf t.2 a (sliceGroups t.1 a n))

theorem openCol_reads {t : TarCol B} {a n : Nat} (hs : Sized t.1) (h : a + n ≤ tarCount t.1) :
    ∃ c, openCol a n t = some c ∧ Reads c.excl c.shard c.rd (samplesOf t.2 a (sliceGroups t.1 a n)) := by
  obtain ⟨sh, r, h1, h2, h3⟩ := C39_slice (name := t.2) hs h
  exact ⟨⟨fun _ => false, sh, r⟩, by unfold openCol; simp [h1, h2], (h3 _).2 rfl⟩

theorem openCols_reads {ts : List (TarCol B)} {a n : Nat} (hts : ∀ t ∈ ts, Sized t.1 ∧ a + n ≤ tarCount t.1) :
    ∃ cols, openCols a n ts = some cols ∧
      ColsRead (cols.map fun c => (c, none)) (ts.map fun t => samplesOf t.2 a (sliceGroups t.1 a n)) := by
  induction ts with
  | nil => exact ⟨[], rfl, .nil⟩
  | cons t ts ih =>
    obtain ⟨cols, h3, h4⟩ := ih (fun t ht => hts t (List.mem_cons_of_mem _ ht))
    obtain ⟨ht1, ht2⟩ := hts t (List.mem_cons_self ..)
    obtain ⟨c, h5, h6⟩ := openCol_reads ht1 ht2
    exact ⟨c :: cols, by unfold openCols; simp [h3, h5], .cons h6 h4⟩

theorem samplesOf_bases (nm : String) (a : Nat) (gs : List (List (Entry B))) :
    (samplesOf nm a gs).map (·.content.base) = gs.map baseOf := by
  simp only [samplesOf, List.map_map]
  have : ∀ gs : List (List (Entry B)), ∀ i,
      (gs.zipIdx i).map ((fun s => s.content.base) ∘ fun p => sampleOf nm p.2 p.1) = gs.map baseOf := by
    intro gs
    induction gs with
    | nil => intro i; rfl
    | cons g gs ih => intro i; simp only [List.zipIdx_cons, List.map_cons, ih]; rfl
  exact this gs a

/-- **C54 for tar files**: if all columns have the same base names in this slice, reading the joined slice gives exactly the samples
joined by number: sample `a + k` of every column, for `k = 0, …, n - 1`. -/
theorem C54_tars {raising : Bool} {t : TarCol B} {ts : List (TarCol B)} {a n : Nat}
    (hts : ∀ u ∈ t :: ts, Sized u.1 ∧ a + n ≤ tarCount u.1)
    (hb : ∀ u ∈ ts, (sliceGroups u.1 a n).map baseOf = (sliceGroups t.1 a n).map baseOf) :
    ∃ m, openJoined a n (t :: ts) = some m ∧
      ∀ rows, MAll raising m rows ↔ rows = (List.range n).map (joinedRow (t :: ts) a n) := by
  obtain ⟨c, h1, h2⟩ := openCol_reads (hts t (List.mem_cons_self ..)).1 (hts t (List.mem_cons_self ..)).2
  obtain ⟨cols, h3, h4⟩ := openCols_reads (ts := ts) (fun u hu => hts u (List.mem_cons_of_mem _ hu))
  refine ⟨multiOpen c cols, by unfold openJoined openCols; simp [h1, h3], fun rows => ?_⟩
  have hlen : n = (samplesOf t.2 a (sliceGroups t.1 a n)).length := by
    have := (hts t (List.mem_cons_self ..)).2
    rw [tarCount_eq] at this
    simp only [samplesOf, List.length_map, List.length_zipIdx, sliceGroups, List.length_take, List.length_drop]
    omega
  have := C54_all (raising := raising) (m := multiOpen c cols) h2 h4 (by
    intro zs hz
    obtain ⟨u, hu, rfl⟩ := List.mem_map.1 hz
    rw [samplesOf_bases, samplesOf_bases]
    exact hb u hu)
  rw [← hlen] at this
  refine ⟨fun h => h.det this, ?_⟩
  rintro rfl
  exact this

/-- **C54, detection** for tar files: with the default handler, a joined slice can be read to its end exactly if the base names of the columns agree. -/
theorem C54_tars_detects {t : TarCol B} {ts : List (TarCol B)} {a n : Nat} (hts : ∀ u ∈ t :: ts, Sized u.1 ∧ a + n ≤ tarCount u.1) :
    ∃ m, openJoined a n (t :: ts) = some m ∧
      ((∃ rows, MAll true m rows) ↔ ∀ u ∈ ts, (sliceGroups u.1 a n).map baseOf = (sliceGroups t.1 a n).map baseOf) := by
  obtain ⟨c, h1, h2⟩ := openCol_reads (hts t (List.mem_cons_self ..)).1 (hts t (List.mem_cons_self ..)).2
  obtain ⟨cols, h3, h4⟩ := openCols_reads (ts := ts) (fun u hu => hts u (List.mem_cons_of_mem _ hu))
  have ho : openJoined a n (t :: ts) = some (multiOpen c cols) := by unfold openJoined openCols; simp [h1, h3]
  refine ⟨multiOpen c cols, ho, ?_, ?_⟩
  · rintro ⟨rows, hr⟩ u hu
    have := C54_detects hr h2 h4 _ (List.mem_map.2 ⟨u, hu, rfl⟩)
    rwa [samplesOf_bases, samplesOf_bases] at this
  · intro hb
    obtain ⟨m, h5, h6⟩ := C54_tars (raising := true) hts hb
    rw [ho] at h5
    cases h5
    exact ⟨_, (h6 _).2 rfl⟩

/-! ## C56: restoring joined samples -/

/-- The names and numbers in a key -/
def keyPairs : List Key → Option (List (String × Nat))
  | [] => some []
  | .str n :: .num i :: k => (keyPairs k).map ((n, i) :: ·)
  | _ => none

/-- sample_loader.py:567-580: the slices with one sample each -/
def openRestore : List (TarCol B) → List (String × Nat) → Option (List (Col B))
  | [], [] => some []
  | t :: ts, (n, i) :: ps => (openCol i 1 (t.1, n)).bind fun c => (openRestore ts ps).map (c :: ·)
  | _, _ => none

/-- sample_loader.py:554-584 `restore_sample`: `ts` are the columns of the shard named in the key (`shard_path_map`). Nothing is excluded. -/
def restoreJoined (ts : List (TarCol B)) : List Key → Option (Joined B)
  | .str "Webdataset" :: k =>
    (keyPairs k).bind fun ps => (openRestore ts ps).bind fun
      | [] => none
      | p :: cols =>
        match multiNext true (multiOpen p cols) with
        | .got a _ => some a
        | _ => none
  | _ => none

/-- joined_webdataset.py:220-230: the restore keys of the parts put together: all of the first, the shard and the number of the
others. -/
def combineKeys : Joined B → List Key
  | some a :: l => a.key ++ (l.map fun
      | some b => (b.key.drop 1).take 2
      | none => [.str "", .num 0]).flatten
  | _ => []

/-- joined_webdataset.py:238-243: the restore key of the joined sample: `set_sample_restore_key` puts the name of the class in front
(base_dataset.py:406-423). -/
def joinedKey (row : Joined B) : List Key := .str "JoinedWebdatasetFactory" :: combineKeys row

theorem openRestore_same {ts : List (TarCol B)} {i : Nat} :
    openRestore ts (ts.map fun t => (t.2, i)) = openCols i 1 ts := by
  induction ts with
  | nil => rfl
  | cons t ts ih => simp only [List.map_cons, openRestore, openCols, ih]

theorem samplesOf_at {t : TarCol B} {a n k : Nat} (h : a + n ≤ tarCount t.1) (hk : k < n) :
    ∃ g, (groups (entries t.1))[a + k]? = some g ∧
      (samplesOf t.2 a (sliceGroups t.1 a n))[k]? = some (sampleOf t.2 (a + k) g) := by
  rw [tarCount_eq] at h
  have hlt : a + k < (groups (entries t.1)).length := by omega
  refine ⟨_, List.getElem?_eq_getElem hlt, ?_⟩
  unfold samplesOf sliceGroups
  rw [List.getElem?_map, List.getElem?_zipIdx, List.getElem?_take, if_pos hk, List.getElem?_drop, List.getElem?_eq_getElem hlt]
  simp

/-- **C56, what goes wrong**: no joined sample can be restored from its restore key. -/
theorem C56_violated (ts : List (TarCol B)) (row : Joined B) : restoreJoined ts (joinedKey row) = none := rfl

theorem joinedRow_one {ts : List (TarCol B)} {a n k : Nat} (hts : ∀ u ∈ ts, a + n ≤ tarCount u.1) (hk : k < n) :
    joinedRow ts (a + k) 1 0 = joinedRow ts a n k := by
  unfold joinedRow rowAt
  rw [List.map_map, List.map_map]
  apply List.map_congr_left
  intro t ht
  obtain ⟨g, hg, h1⟩ := samplesOf_at (hts t ht) hk
  have h2 := hts t ht
  obtain ⟨g', hg', h3⟩ := samplesOf_at (t := t) (a := a + k) (n := 1) (k := 0) (by omega) (by omega)
  simp only [Nat.add_zero] at hg' h3
  rw [hg] at hg'
  cases hg'
  simp only [Function.comp]
  rw [h1, h3]

theorem combineKeys_row {t : TarCol B} {ts : List (TarCol B)} {a n k : Nat} (hts : ∀ u ∈ t :: ts, a + n ≤ tarCount u.1) (hk : k < n) :
    ∃ key, combineKeys (joinedRow (t :: ts) a n k) = .str "Webdataset" :: key ∧
      keyPairs key = some ((t :: ts).map fun u => (u.2, a + k)) := by
  obtain ⟨g, _, h1⟩ := samplesOf_at (hts t (List.mem_cons_self ..)) hk
  have hrest : ∀ us : List (TarCol B), (∀ u ∈ us, a + n ≤ tarCount u.1) →
      keyPairs ((joinedRow us a n k).map fun
        | some b => (b.key.drop 1).take 2
        | none => [.str "", .num 0]).flatten = some (us.map fun u => (u.2, a + k)) := by
    intro us hus
    induction us with
    | nil => rfl
    | cons u us ih =>
      obtain ⟨g, _, h2⟩ := samplesOf_at (hus u (List.mem_cons_self ..)) hk
      have ih := ih (fun u hu => hus u (List.mem_cons_of_mem _ hu))
      unfold joinedRow rowAt at ih ⊢
      simp only [List.map_cons, h2, sampleOf, List.drop_succ_cons, List.drop_zero, List.take_succ_cons, List.take_zero, List.flatten_cons,
        List.cons_append, List.nil_append, keyPairs]
      rw [ih]
      rfl
  have h3 := hrest ts (fun u hu => hts u (List.mem_cons_of_mem _ hu))
  refine ⟨[.str t.2, .num (a + k)] ++ ((joinedRow ts a n k).map fun
      | some b => (b.key.drop 1).take 2
      | none => [.str "", .num 0]).flatten, ?_, ?_⟩
  · unfold joinedRow rowAt
    simp only [List.map_cons, h1, combineKeys, sampleOf]
    rfl
  · simp only [List.cons_append, List.nil_append, keyPairs, h3]
    rfl

/-- **C56, the part that holds**: without the name of the class in front of it, the key of each joined sample restores it. What is missing: the real key has
this name in front and is never restored (`C56_violated`). -/
theorem C56_without_prefix_partial {t : TarCol B} {ts : List (TarCol B)} {a n k : Nat}
    (hts : ∀ u ∈ t :: ts, Sized u.1 ∧ a + n ≤ tarCount u.1)
    (hb : ∀ u ∈ ts, (sliceGroups u.1 a n).map baseOf = (sliceGroups t.1 a n).map baseOf) (hk : k < n) :
    restoreJoined (t :: ts) (combineKeys (joinedRow (t :: ts) a n k)) = some (joinedRow (t :: ts) a n k) := by
  obtain ⟨key, h1, h2⟩ := combineKeys_row (fun u hu => (hts u hu).2) hk
  have hone : ∀ u ∈ t :: ts, sliceGroups u.1 (a + k) 1 = ((sliceGroups u.1 a n).drop k).take 1 := by
    intro u hu
    unfold sliceGroups
    rw [List.drop_take, List.take_take, List.drop_drop]
    congr 1
    omega
  obtain ⟨m, h3, h4⟩ := C54_tars (raising := true) (t := t) (ts := ts) (a := a + k) (n := 1)
    (fun u hu => ⟨(hts u hu).1, by have := (hts u hu).2; omega⟩)
    (by
      intro u hu
      rw [hone u (List.mem_cons_of_mem _ hu), hone t (List.mem_cons_self ..), List.map_take, List.map_take, List.map_drop, List.map_drop,
        hb u hu])
  rw [h1]
  unfold restoreJoined
  simp only [h2, Option.bind_some]
  rw [openRestore_same]
  unfold openJoined at h3
  cases hc : openCols (a + k) 1 (t :: ts) with
  | none => rw [hc] at h3; cases h3
  | some cols =>
    rw [hc] at h3
    simp only [Option.bind_some] at h3 ⊢
    cases cols with
    | nil => cases h3
    | cons p cols =>
      simp only [Option.some.injEq] at h3 ⊢
      subst h3
      rw [show (List.range 1).map (joinedRow (t :: ts) (a + k) 1) = [joinedRow (t :: ts) (a + k) 1 0] from rfl,
        joinedRow_one (fun u hu => (hts u hu).2) hk] at h4
      cases (h4 _).2 rfl with
      | next h5 _ => rw [h5]

/-- The second column lacks `y`. -/
def exTar2 : List (Member Nat) := [⟨1024, true, "x.png".toList, 11⟩, ⟨1024, true, "w.png".toList, 12⟩, ⟨1024, true, "z.png".toList, 14⟩]

/-- The base names of the joined samples, for two tar files -/
def joinBases (raising : Bool) (t1 t2 : List (Member Nat)) : Nat → Option (Multi Nat) → List (List (Option Name))
  | 0, _ => []
  | k + 1, none =>
    match mkShard (tarIndex t1) "a" 0 (tarCount t1), mkShard (tarIndex t2) "b" 0 (tarCount t2) with
    | some s1, some s2 =>
      match rdOpen t1 s1 0 0, rdOpen t2 s2 0 0 with
      | some r1, some r2 =>
        joinBases raising t1 t2 k (some (multiOpen ⟨fun _ => false, s1, r1⟩ [⟨fun _ => false, s2, r2⟩]))
      | _, _ => []
    | _, _ => []
  | k + 1, some m =>
    match multiNext raising m with
    | .got a m' => a.map (·.map (·.content.base)) :: joinBases raising t1 t2 k (some m')
    | _ => []

/-- **C54 is violated** with a handler that does not raise: `y` and `z` are delivered with the `x` of the second column, since the
second reader stays at `w` and the entry of the list of groups is left from before. With a raising handler the reading stops after `x`. -/
theorem C54_violated :
    joinBases false exTar exTar2 10 none =
      [[some "x".toList, some "x".toList], [some "y".toList, some "x".toList], [some "z".toList, some "x".toList]] ∧
    joinBases true exTar exTar2 10 none = [[some "x".toList, some "x".toList]] := by
  constructor <;> decide +kernel

/-- An example for `C54_tars`. -/
example : joinBases true exTar [⟨1024, true, "x.png".toList, 11⟩, ⟨1024, true, "y.png".toList, 12⟩, ⟨1024, true, "z.png".toList, 14⟩] 10 none =
      [[some "x".toList, some "x".toList], [some "y".toList, some "y".toList], [some "z".toList, some "z".toList]] := by
  decide +kernel

/-- An example for the hypotheses of `C54_tars` and `C56_without_prefix_partial`: two columns with the same base names -/
example : ((sliceGroups exTar 0 2).map baseOf) = (sliceGroups
    ([⟨1024, true, "x.png".toList, 11⟩, ⟨1024, true, "y.png".toList, 12⟩] : List (Member Nat)) 0 2).map baseOf ∧ tarCount exTar = 3 := by
  decide +kernel

end Verif.Wds
