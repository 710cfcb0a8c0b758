import Verif.Wds.ReaderSteps
import Verif.Wds.LoaderProps

/-!
# Properties of the reader of slices (C34, C39, C42)
-/

namespace Verif.Wds

open Verif.Stream

variable {B : Type} {excl : Name → Bool} {sh : Shard} {r r' : Rd B} {tar : List (Member B)}

/-! ## Positions in the file -/

theorem withOffsets_split {k : Nat} {l : List (Member B)} {s1 s2 : List (Nat × Member B)} {om : Nat × Member B}
    (h : withOffsets k l = s1 ++ om :: s2) :
    ∃ l1 l2, l = l1 ++ om.2 :: l2 ∧ s1 = withOffsets k l1 ∧ om.1 = k + bytes l1 ∧
      s2 = withOffsets (k + bytes (l1 ++ [om.2])) l2 := by
  induction s1 generalizing k l with
  | nil =>
    cases l with
    | nil => cases h
    | cons m l =>
      simp only [withOffsets, List.nil_append, List.cons.injEq] at h
      obtain ⟨rfl, rfl⟩ := h
      exact ⟨[], l, rfl, rfl, by simp, by simp⟩
  | cons o s1 ih =>
    cases l with
    | nil => cases h
    | cons m l =>
      simp only [withOffsets, List.cons_append, List.cons.injEq] at h
      obtain ⟨rfl, h⟩ := h
      obtain ⟨l1, l2, h1, h2, h3, h4⟩ := ih h
      refine ⟨m :: l1, l2, by rw [h1]; rfl, by rw [h2]; rfl, by rw [h3, bytes_cons]; omega, ?_⟩
      rw [h4]
      simp [Nat.add_assoc]

theorem withOffsets_members (k : Nat) (l : List (Member B)) : (withOffsets k l).map (·.2) = l := by
  induction l generalizing k with
  | nil => rfl
  | cons m l ih => simp [withOffsets, ih]

theorem entS_withOffsets (k : Nat) (l : List (Member B)) : entS excl (withOffsets k l) = entX excl l := by
  rw [entS, withOffsets_members]

/-- A reader in the slice `mid`: `done` are the bytes before `shard_state.byte_offset`. -/
structure RdInv (excl : Name → Bool) (sh : Shard) (mid : List (Member B)) (r : Rd B) : Prop where
  pos : ∃ done todo, mid = done ++ todo ∧ r.byteOff = bytes done ∧ entX excl todo = pend excl r
  len : (groups (pend excl r)).length + r.offset ≤ sh.count
  str : pend excl r = [] ∨ ∃ d l d', mid = d ++ l ∧ r.orig = bytes d ∧ ∃ rest, l = d' ++ rest ∧ r.stream = withOffsets (bytes d') rest

theorem RdInv.next {mid : List (Member B)} {want : Option Name} {a : Smp (Raw B)} (hsz : sh.byteSize = bytes mid) (h : RdInv excl sh mid r)
    (hn : readNext excl sh want r = .got a r') : RdInv excl sh mid r' := by
  obtain ⟨g, hg1, _, hg3, _⟩ := readNext_got hn
  have hlen : (groups (pend excl r')).length + r'.offset ≤ sh.count := by
    have := h.len
    rw [hg1, List.length_cons] at this
    omega
  rw [readNext_eq] at hn
  cases hp : peek excl r with
  | none => simp [hp] at hn
  | some cr =>
    obtain ⟨c, rest⟩ := cr
    simp only [hp] at hn
    split at hn
    · cases hn
    -- where the stream is
    have hne : pend excl r ≠ [] := by rw [peek_some hp]; simp
    obtain ⟨d, l, d', hm, ho, rr, hl, hs⟩ := h.str.resolve_left hne
    have hrest : ∃ d2 rr2, l = d2 ++ rr2 ∧ rest = withOffsets (bytes d2) rr2 := by
      unfold peek at hp
      cases hc : r.cur with
      | some c' =>
        simp only [hc, Option.some.injEq, Prod.mk.injEq] at hp
        obtain ⟨_, rfl⟩ := hp
        exact ⟨d', rr, hl, hs⟩
      | none =>
        simp only [hc] at hp
        obtain ⟨pre, om, h1, _, _⟩ := nextInfo_some hp
        rw [hs] at h1
        obtain ⟨l1, l2, k1, k2, k3, k4⟩ := withOffsets_split h1
        exact ⟨d' ++ (l1 ++ [om.2]), l2, by rw [hl, k1]; simp, by rw [k4]; simp⟩
    obtain ⟨d2, rr2, hl2, hs2⟩ := hrest
    cases hg : readGroup excl c.base [(c.ext, c.data)] rest with
    | mk P o =>
      rw [hg] at hn
      cases o with
      | none =>
        simp only [Rn.got.injEq] at hn
        obtain ⟨_, rfl⟩ := hn
        refine ⟨⟨mid, [], by simp, ?_, rfl⟩, hlen, .inl rfl⟩
        have : bytes mid = bytes d + bytes l := by rw [hm, bytes_append]
        simp only
        omega
      | some cr' =>
        obtain ⟨c', rest'⟩ := cr'
        simp only [Rn.got.injEq] at hn
        obtain ⟨_, rfl⟩ := hn
        obtain ⟨pre, om, h1, h2, _⟩ := readGroup_some hg
        rw [hs2] at h1
        obtain ⟨l1, l2, k1, k2, k3, k4⟩ := withOffsets_split h1
        refine ⟨⟨d ++ (d2 ++ l1), om.2 :: l2, by rw [hm, hl2, k1]; simp, ?_, ?_⟩, hlen,
          .inr ⟨d, l, d2 ++ (l1 ++ [om.2]), hm, ho, l2, by rw [hl2, k1]; simp, by rw [k4]; simp⟩⟩
        · simp only [bytes_append]
          rw [← h2.off, k3, ho]
          omega
        · have e : entX excl (om.2 :: l2) = entS excl (om :: rest') := by
            rw [k4]
            unfold entS
            rw [List.map_cons, withOffsets_members]
          rw [e, h2.ent]
          rfl

/-- Opening the slice at a position between samples. -/
theorem rdOpen_inv {pre mid post done todo : List (Member B)} (hs : Sized tar) (ht : tar = pre ++ mid ++ post)
    (hm : mid = done ++ todo) {name : String} {a n k : Nat} (hlen : (groups (entX excl todo)).length + k ≤ n) :
    ∃ r, rdOpen tar ⟨name, a, n, bytes pre, bytes mid⟩ k (bytes done) = some r ∧ pend excl r = entX excl todo ∧ r.offset = k ∧
      RdInv excl ⟨name, a, n, bytes pre, bytes mid⟩ mid r := by
  unfold rdOpen
  simp only
  by_cases hk : k = n
  · rw [if_pos hk]
    have h0 : entX excl todo = [] := by
      apply groups_eq_nil.1
      apply List.length_eq_zero_iff.1
      omega
    refine ⟨_, rfl, h0.symm, rfl, ⟨done, todo, hm, rfl, h0⟩, ?_, .inl rfl⟩
    simp only [pend, entS, entX, entries]
    simp [groups]
    omega
  · rw [if_neg hk, if_pos (by rw [hm, bytes_append]; omega)]
    by_cases hb : bytes done < bytes mid
    · rw [if_pos hb]
      have ho : openItar tar (bytes pre + bytes done) (bytes mid - bytes done) = some todo := by
        have : tar = (pre ++ done) ++ todo ++ post := by rw [ht, hm]; simp
        rw [this, show bytes mid - bytes done = bytes todo by rw [hm, bytes_append]; omega, ← bytes_append]
        exact openItar_append (this ▸ hs)
      rw [ho]
      have hp : pend excl ⟨withOffsets 0 todo, none, k, bytes done, bytes done⟩ = entX excl todo := by
        simp [pend, entS_withOffsets]
      refine ⟨_, rfl, hp, rfl, ⟨done, todo, hm, rfl, hp.symm⟩, ?_, .inr ⟨done, todo, [], hm, rfl, todo, rfl, rfl⟩⟩
      rw [hp]
      exact hlen
    · rw [if_neg hb]
      have h0 : todo = [] := by
        cases todo with
        | nil => rfl
        | cons m l =>
          have := hs m (by rw [ht, hm]; simp)
          rw [hm, bytes_append, bytes_cons] at hb
          omega
      subst h0
      refine ⟨_, rfl, rfl, rfl, ⟨done, [], hm, rfl, rfl⟩, ?_, .inl rfl⟩
      simp only [pend, entS, entX, entries]
      simp [groups]
      have : (groups (entX excl ([] : List (Member B)))).length = 0 := by simp [entX, entries, groups]
      omega

theorem push_length (e : Entry B) (gs : List (List (Entry B))) : (e.push gs).length ≤ gs.length + 1 := by
  unfold Entry.push
  split
  · split <;> simp
  · simp

theorem groups_filter_length {gs : List (List (Entry B))} (h : IsRuns gs) (q : Name → Bool) :
    (groups (gs.flatten.filter (fun e => q e.base))).length ≤ gs.length := by
  induction gs with
  | nil => simp [groups]
  | cons g gs ih =>
    obtain ⟨⟨e, t, rfl, h2, h3⟩, h4⟩ := h
    have ih := ih h4
    rw [List.flatten_cons, List.filter_append]
    cases hq : q e.base with
    | false =>
      have : (e :: t).filter (fun e => q e.base) = [] := by
        rw [List.filter_eq_nil_iff]
        intro f hf
        rcases List.mem_cons.1 hf with rfl | hf
        · simp [hq]
        · simp [h2 f hf, hq]
      rw [this, List.nil_append, List.length_cons]
      omega
    | true =>
      have : (e :: t).filter (fun e => q e.base) = e :: t := by
        rw [List.filter_eq_self]
        intro f hf
        rcases List.mem_cons.1 hf with rfl | hf
        · exact hq
        · rw [h2 f hf, hq]
      rw [this, List.cons_append, groups_cons, List.length_cons, List.length_cons]
      have key : ∀ X : List (Entry B), (groups ((t ++ X).dropWhile (fun f => decide (f.base = e.base)))).length ≤ (groups X).length := by
        intro X
        have e1 : (t ++ X).dropWhile (fun f => decide (f.base = e.base)) = X.dropWhile (fun f => decide (f.base = e.base)) := by
          rw [List.dropWhile_append_of_pos]
          intro f hf
          simp [h2 f hf]
        rw [e1]
        clear e1
        cases X with
        | nil => simp
        | cons f X =>
          by_cases hf : f.base = e.base
          · rw [groups_cons]
            simp only [List.dropWhile_cons, hf]
            simp
          · simp [hf]
      have := key (gs.flatten.filter (fun e => q e.base))
      omega

/-- What a slice delivers: the groups among its files that are not excluded. -/
theorem slice_reads (hs : Sized tar) {name : String} {a n : Nat} (h : mkShard (tarIndex tar) name a n = some sh) (excl : Name → Bool) :
    ∃ r, rdOpen tar sh 0 0 = some r ∧ Reads excl sh r (samplesOf name a
      (groups ((sliceGroups tar a n).flatten.filter (fun e => !excl e.base)))) ∧
      ∃ mid, sh.byteSize = bytes mid ∧ RdInv excl sh mid r ∧ ∃ pre post, tar = pre ++ mid ++ post ∧ sh = ⟨name, a, n, bytes pre, bytes mid⟩ := by
  obtain ⟨pre, mid, post, h1, h2, h3, h4⟩ := slice_spec hs h
  have hl : (groups (entX excl mid)).length + 0 ≤ n := by
    unfold entX
    rw [h3]
    have := groups_filter_length (sliceGroups_runs tar a n) (fun b => !excl b)
    rw [sliceGroups_length h4] at this
    exact this
  subst h2
  obtain ⟨r, k1, k2, k3, k4⟩ := rdOpen_inv (done := []) (todo := mid) (name := name) (a := a) (excl := excl) hs h1 rfl hl
  refine ⟨r, k1, reads_iff.2 ?_, mid, rfl, k4, pre, post, h1, rfl⟩
  rw [k2, k3]
  unfold entX
  rw [h3]
  simp

/-! ## C39 -/

/-- **C39.** With the index made by the preparation, reading the slice of `n` samples from number `a` through its range of bytes delivers exactly
the samples number `a`, ..., `a + n - 1` of the file (maximal runs of files with the same base name), in order and complete. For
every tar file, whatever other members are in it. -/
theorem C39_slice (hs : Sized tar) {name : String} {a n : Nat} (h : a + n ≤ tarCount tar) :
    ∃ sh r, mkShard (tarIndex tar) name a n = some sh ∧ rdOpen tar sh 0 0 = some r ∧
      ∀ xs, Reads (fun _ => false) sh r xs ↔ xs = samplesOf name a (sliceGroups tar a n) := by
  obtain ⟨sh, hsh⟩ := mkShard_some (name := name) h
  obtain ⟨r, h1, h2, _⟩ := slice_reads hs hsh (fun _ => false)
  refine ⟨sh, r, hsh, h1, fun xs => ?_⟩
  have e : groups ((sliceGroups tar a n).flatten.filter (fun e => !(fun _ : Name => false) e.base)) = sliceGroups tar a n := by
    rw [List.filter_eq_self.2 (by simp)]
    exact groups_of_runs (sliceGroups_runs tar a n)
  rw [e] at h2
  rw [reads_iff] at h2 ⊢
  rw [← h2]

/-- **C39**: the number of samples recorded for the file is the number of its samples. -/
theorem C39_count (tar : List (Member B)) : tarCount tar = (groups (entries tar)).length := tarCount_eq tar

theorem zipIdx_take_drop {α : Type} (l : List α) (k a n : Nat) : ((l.drop a).take n).zipIdx (k + a) = ((l.zipIdx k).drop a).take n := by
  apply List.ext_getElem?
  intro i
  rw [List.getElem?_zipIdx, List.getElem?_take, List.getElem?_take]
  split
  · rw [List.getElem?_drop, List.getElem?_drop, List.getElem?_zipIdx]
    cases l[a + i]? with
    | none => rfl
    | some x => simp; omega
  · rfl

/-- **C39**, without reference to groups: a slice delivers the same samples as the corresponding part of reading the whole file from
beginning to end. -/
theorem C39_sequential (hs : Sized tar) {name : String} {a n : Nat} (h : a + n ≤ tarCount tar) {whole sh : Shard} {rw r : Rd B}
    (hw : mkShard (tarIndex tar) name 0 (tarCount tar) = some whole) (how : rdOpen tar whole 0 0 = some rw)
    (hsl : mkShard (tarIndex tar) name a n = some sh) (hos : rdOpen tar sh 0 0 = some r)
    {all xs : List (Smp (Raw B))} (hall : Reads (fun _ => false) whole rw all) (hxs : Reads (fun _ => false) sh r xs) :
    xs = (all.drop a).take n := by
  obtain ⟨_, _, h1, h2, h3⟩ := C39_slice (name := name) hs h
  obtain ⟨_, _, h1', h2', h3'⟩ := C39_slice (name := name) (a := 0) (n := tarCount tar) hs (by omega)
  rw [hsl] at h1
  cases h1
  rw [hos] at h2
  cases h2
  rw [hw] at h1'
  cases h1'
  rw [how] at h2'
  cases h2'
  rw [(h3 xs).1 hxs, (h3' all).1 hall]
  have e : sliceGroups tar 0 (tarCount tar) = groups (entries tar) := by
    unfold sliceGroups
    rw [tarCount_eq, List.drop_zero, List.take_length]
  rw [e]
  unfold samplesOf sliceGroups
  rw [← List.map_drop, ← List.map_take]
  congr 1
  have := zipIdx_take_drop (groups (entries tar)) 0 a n
  rwa [Nat.zero_add] at this

/-- The readers of a slice: opened at the beginning, or after some samples, or opened again at a saved position. -/
inductive RdReach {B : Type} (tar : List (Member B)) (excl : Name → Bool) (sh : Shard) : Rd B → Prop where
  | start {r : Rd B} : rdOpen tar sh 0 0 = some r → RdReach tar excl sh r
  | next {r r' : Rd B} {a} : RdReach tar excl sh r → readNext excl sh none r = .got a r' → RdReach tar excl sh r'
  | again {r r' : Rd B} : RdReach tar excl sh r → rdOpen tar sh r.offset r.byteOff = some r' → RdReach tar excl sh r'

theorem RdReach.inv (hs : Sized tar) {name : String} {a n : Nat} (h : mkShard (tarIndex tar) name a n = some sh)
    (hr : RdReach tar excl sh r) : ∃ pre mid post, tar = pre ++ mid ++ post ∧ sh = ⟨name, a, n, bytes pre, bytes mid⟩ ∧
      RdInv excl sh mid r := by
  obtain ⟨r0, k1, _, mid, k3, k4, pre, post, k5, k6⟩ := slice_reads hs h excl
  refine ⟨pre, mid, post, k5, k6, ?_⟩
  induction hr with
  | start h1 =>
    rw [k1] at h1
    cases h1
    exact k4
  | next _ h2 ih => exact ih.next k3 h2
  | @again r r' _ h2 ih =>
    obtain ⟨done, todo, g1, g2, g3⟩ := ih.pos
    have hl : (groups (entX excl todo)).length + r.offset ≤ n := by
      rw [g3]
      have := ih.len
      rw [k6] at this
      exact this
    obtain ⟨r1, m1, m2, m3, m4⟩ := rdOpen_inv (name := name) (a := a) (excl := excl) hs k5 g1 hl
    rw [← g2, ← k6, h2] at m1
    cases m1
    rw [← k6] at m4
    exact m4

/-- **C33, the part of the reader**: opening a slice again at the saved position (number of samples and bytes) delivers exactly what the
interrupted reader would have delivered, also with exclusions, any number of times. This justifies that the model of the loader
(`Verif.Wds.LoaderModel`) keeps only the number of samples read. -/
theorem C33_reader_resumes (hs : Sized tar) {name : String} {a n : Nat} (h : mkShard (tarIndex tar) name a n = some sh)
    (hr : RdReach tar excl sh r) :
    ∃ r', rdOpen tar sh r.offset r.byteOff = some r' ∧ r'.offset = r.offset ∧ ∀ xs, Reads excl sh r' xs ↔ Reads excl sh r xs := by
  obtain ⟨pre, mid, post, k5, k6, hi⟩ := hr.inv hs h
  obtain ⟨done, todo, g1, g2, g3⟩ := hi.pos
  have hl : (groups (entX excl todo)).length + r.offset ≤ n := by
    rw [g3]
    have := hi.len
    rw [k6] at this
    exact this
  obtain ⟨r1, m1, m2, m3, m4⟩ := rdOpen_inv (name := name) (a := a) (excl := excl) hs k5 g1 hl
  rw [← g2, ← k6] at m1
  refine ⟨r1, m1, m3, fun xs => ?_⟩
  rw [reads_iff, reads_iff, m2, m3, g3]

/-! ## C34 and C42: restoring raw samples -/

theorem sliceGroups_one {i : Nat} {g : List (Entry B)} (h : (groups (entries tar))[i]? = some g) : sliceGroups tar i 1 = [g] := by
  unfold sliceGroups
  obtain ⟨hl, rfl⟩ := List.getElem?_eq_some_iff.1 h
  rw [List.drop_eq_getElem_cons hl]
  rfl

/-- `restore_sample` for sample number `i` reads this sample, unless it is excluded. -/
theorem restore_spec (hs : Sized tar) {name : String} {i : Nat} {g : List (Entry B)} (h : (groups (entries tar))[i]? = some g)
    (hx : ∀ e ∈ g, excl e.base = false) :
    restoreRaw tar excl name [.str "Webdataset", .str name, .num i] = some (sampleOf name i g) := by
  have hi : i + 1 ≤ tarCount tar := by
    rw [tarCount_eq]
    exact (List.getElem?_eq_some_iff.1 h).1
  obtain ⟨sh, hsh⟩ := mkShard_some (name := name) hi
  obtain ⟨r, h1, h2, mid, _, _, pre, post, _, h6⟩ := slice_reads hs hsh excl
  have e : groups ((sliceGroups tar i 1).flatten.filter (fun e => !excl e.base)) = [g] := by
    have hr := sliceGroups_runs tar i 1
    rw [sliceGroups_one h] at hr ⊢
    rw [List.filter_eq_self.2]
    · exact groups_of_runs hr
    · intro e he
      have : e ∈ g := by simpa using he
      simp [hx e this]
  rw [e] at h2
  have e2 : samplesOf name i [g] = [sampleOf name i g] := by simp [samplesOf]
  rw [e2] at h2
  unfold restoreRaw
  simp only [ne_eq, not_true_eq_false, if_false, hsh, Option.bind_some, h1]
  cases h2 with
  | next h3 _ => rw [h3]

theorem samplesOf_getElem? {name : String} {a k : Nat} {gs : List (List (Entry B))} {s : Smp (Raw B)}
    (h : (samplesOf name a gs)[k]? = some s) : ∃ g, gs[k]? = some g ∧ s = sampleOf name (a + k) g := by
  unfold samplesOf at h
  rw [List.getElem?_map, List.getElem?_zipIdx] at h
  cases hg : gs[k]? with
  | none => simp [hg] at h
  | some g =>
    simp [hg] at h
    exact ⟨g, rfl, h.symm⟩

/-- **C34 for the reader**: without exclusions, each sample delivered from any slice is restored by its restore key. -/
theorem C34_reader (hs : Sized tar) {name : String} {a n : Nat} (s : Smp (Raw B))
    (hm : s ∈ samplesOf name a (sliceGroups tar a n)) : restoreRaw tar (fun _ => false) name s.key = some s := by
  obtain ⟨k, hk⟩ := List.mem_iff_getElem?.1 hm
  obtain ⟨g, hg, rfl⟩ := samplesOf_getElem? hk
  refine restore_spec hs ?_ (fun _ _ => rfl)
  unfold sliceGroups at hg
  rw [List.getElem?_take] at hg
  split at hg
  · rwa [List.getElem?_drop] at hg
  · cases hg

/-- Where the samples of a worker come from: slices of tar files, given by name, without exclusions. -/
def mkSlice (tars : String → List (Member B)) (name : String) (a n : Nat) : Slice (Raw B) :=
  ⟨(name, a), n, samplesOf name a (sliceGroups (tars name) a n)⟩

/-- sample_loader.py:554-584 `restore_sample`: the shard is found by its name. -/
def restoreTars (tars : String → List (Member B)) (excl : String → Name → Bool) : List Key → Option (Smp (Raw B))
  | .str id :: .str n :: rest => restoreRaw (tars n) (excl n) n (.str id :: .str n :: rest)
  | _ => none

/-- **C34 for the loader of raw samples**: for any slices of any tar files, any shuffling and any history, each sample delivered is restored by
its restore key. -/
theorem C34_loader_raw {ρ : Type} (R : WRng ρ) (tars : String → List (Member B)) (hs : ∀ n, Sized (tars n)) (c : Cfg (Raw B))
    (hd : (c.shards.map (·.id)).Nodup)
    (hc : ∀ s ∈ c.shards, ∃ name a n, s = mkSlice tars name a n) (r : Bool) :
    (loaderD R c (restoreTars tars (fun _ _ => false))).RestoresSamples r := by
  intro s a s' hp ho
  obtain ⟨l, hl, ha⟩ := List.mem_flatten.1 (C32_only_own_samples hd r a ⟨s, s', hp, ho⟩)
  obtain ⟨t, ht, rfl⟩ := List.mem_map.1 hl
  obtain ⟨name, i, n, rfl⟩ := hc t ht
  have h1 := C34_reader (hs name) a ha
  obtain ⟨k, hk⟩ := List.mem_iff_getElem?.1 ha
  obtain ⟨g, hg, rfl⟩ := samplesOf_getElem? hk
  exact h1

theorem lookup_dictSet {V : Type} (k : Name) (v : V) (d : List (Name × V)) (x : Name) :
    (dictSet k v d).lookup x = if x = k then some v else d.lookup x := by
  induction d with
  | nil =>
    unfold dictSet
    by_cases h : x = k
    · simp [h, List.lookup]
    · have : (x == k) = false := by simpa using h
      simp [h, List.lookup, this]
  | cons p d ih =>
    obtain ⟨k', v'⟩ := p
    unfold dictSet
    by_cases hk : k' = k
    · subst hk
      rw [if_pos rfl]
      by_cases h : x = k'
      · simp [h, List.lookup]
      · have : (x == k') = false := by simpa using h
        simp [h, List.lookup, this]
    · rw [if_neg hk, List.lookup_cons, List.lookup_cons, ih]
      by_cases h : x = k'
      · subst h
        simp [hk]
      · have : (x == k') = false := by simpa using h
        simp [this]

theorem dictSet_keys {V : Type} (k : Name) (v : V) (d : List (Name × V)) :
    (dictSet k v d).map (·.1) = if k ∈ d.map (·.1) then d.map (·.1) else d.map (·.1) ++ [k] := by
  induction d with
  | nil => simp [dictSet]
  | cons p d ih =>
    obtain ⟨k', v'⟩ := p
    unfold dictSet
    by_cases hk : k' = k
    · subst hk
      simp
    · have hk' : k ≠ k' := fun h => hk h.symm
      rw [if_neg hk, List.map_cons, ih]
      by_cases hm : k ∈ d.map (·.1)
      · simp only [List.map_cons, List.mem_cons, hm, or_true, if_true]
      · simp only [List.map_cons, List.mem_cons, hm, hk', or_self, if_false, List.cons_append]

/-- **C39, the parts of a sample**: the part with the name `x` is the data of the last file of the sample with this extension. -/
theorem C39_parts (g : List (Entry B)) (x : Name) :
    (partsOf g).lookup x = ((g.filter (fun e => e.ext = x)).getLast?).map (·.data) := by
  have key : ∀ (g : List (Entry B)) (d : List (Name × B)),
      (g.foldl (fun d e => dictSet e.ext e.data d) d).lookup x =
        match (g.filter (fun e => e.ext = x)).getLast? with
        | some e => some e.data
        | none => d.lookup x := by
    intro g
    induction g with
    | nil => intro d; rfl
    | cons e g ih =>
      intro d
      rw [List.foldl_cons, ih]
      by_cases hx : e.ext = x
      · rw [List.filter_cons_of_pos (by simpa using hx)]
        cases hl : (g.filter (fun e => decide (e.ext = x))).getLast? with
        | none =>
          have : g.filter (fun e => decide (e.ext = x)) = [] := List.getLast?_eq_none_iff.1 hl
          rw [this]
          simp only [List.getLast?_singleton]
          rw [lookup_dictSet, if_pos hx.symm]
        | some e' => rw [List.getLast?_cons, hl]; rfl
      · rw [List.filter_cons_of_neg (by simpa using hx), lookup_dictSet, if_neg (fun h => hx h.symm)]
  unfold partsOf
  rw [key]
  cases (g.filter (fun e => decide (e.ext = x))).getLast? <;> rfl

/-- No part occurs twice. -/
theorem C39_parts_nodup (g : List (Entry B)) : ((partsOf g).map (·.1)).Nodup := by
  have key : ∀ (g : List (Entry B)) (d : List (Name × B)), (d.map (·.1)).Nodup →
      ((g.foldl (fun d e => dictSet e.ext e.data d) d).map (·.1)).Nodup := by
    intro g
    induction g with
    | nil => intro d h; exact h
    | cons e g ih =>
      intro d h
      refine ih _ ?_
      rw [dictSet_keys]
      split
      · exact h
      · next hm =>
        rw [List.nodup_append]
        exact ⟨h, by simp, by intro a ha b hb; simp at hb; subst hb; rintro rfl; exact hm ha⟩
  exact key g [] (by simp)

end Verif.Wds
