import Verif.Wds.ReaderProps

/-!
# Exclusions (C42), names (C55), joined columns (C54)
-/

namespace Verif.Wds

open Verif.Stream

variable {B : Type} {excl : Name → Bool} {sh : Shard} {r r' : Rd B} {tar : List (Member B)}

/-! ## C42 -/

/-- The base name of a sample -/
def baseOf (g : List (Entry B)) : Name := (g.head?.map (·.base)).getD []

theorem isRuns_filter {gs : List (List (Entry B))} (h : IsRuns gs) (hd : (gs.map baseOf).Nodup) (q : List (Entry B) → Bool) :
    IsRuns (gs.filter q) := by
  induction gs with
  | nil => trivial
  | cons g gs ih =>
    obtain ⟨⟨e, t, rfl, h2, _⟩, h4⟩ := h
    simp only [List.map_cons, List.nodup_cons] at hd
    have ih := ih h4 hd.2
    by_cases hq : q (e :: t) = true
    · rw [List.filter_cons_of_pos hq]
      refine ⟨⟨e, t, rfl, h2, fun f t' hf hb => hd.1 ?_⟩, ih⟩
      have hm : f :: t' ∈ gs.filter q := List.mem_of_head? hf
      exact List.mem_map.2 ⟨_, (List.mem_filter.1 hm).1, by simpa [baseOf] using hb⟩
    · rw [List.filter_cons_of_neg hq]
      exact ih

theorem filter_flatten {gs : List (List (Entry B))} (h : IsRuns gs) (excl : Name → Bool) :
    gs.flatten.filter (fun e => !excl e.base) = (gs.filter (fun g => !excl (baseOf g))).flatten := by
  induction gs with
  | nil => rfl
  | cons g gs ih =>
    obtain ⟨⟨e, t, rfl, h2, _⟩, h4⟩ := h
    rw [List.flatten_cons, List.filter_append, ih h4]
    have hb : baseOf (e :: t) = e.base := rfl
    cases hx : excl e.base with
    | true =>
      have hf : ((e :: t) :: gs).filter (fun g => !excl (baseOf g)) = gs.filter (fun g => !excl (baseOf g)) :=
        List.filter_cons_of_neg (by simp [hb, hx])
      rw [hf]
      have : (e :: t).filter (fun e => !excl e.base) = [] := by
        rw [List.filter_eq_nil_iff]
        intro f hf
        rcases List.mem_cons.1 hf with rfl | hf
        · simp [hx]
        · simp [h2 f hf, hx]
      rw [this]
      rfl
    | false =>
      have hf : ((e :: t) :: gs).filter (fun g => !excl (baseOf g)) = (e :: t) :: gs.filter (fun g => !excl (baseOf g)) :=
        List.filter_cons_of_pos (by simp [hb, hx])
      rw [hf, List.flatten_cons]
      congr 1
      rw [List.filter_eq_self]
      intro f hf
      rcases List.mem_cons.1 hf with rfl | hf
      · simp [hx]
      · simp [h2 f hf, hx]

/-- With exclusions (and distinct base names in the slice) exactly the samples that are not excluded are delivered, in order, numbered
consecutively. -/
theorem C42_delivered (hs : Sized tar) {name : String} {a n : Nat} (h : mkShard (tarIndex tar) name a n = some sh)
    (hd : ((sliceGroups tar a n).map baseOf).Nodup) (excl : Name → Bool) :
    ∃ r, rdOpen tar sh 0 0 = some r ∧
      ∀ xs, Reads excl sh r xs ↔ xs = samplesOf name a ((sliceGroups tar a n).filter (fun g => !excl (baseOf g))) := by
  obtain ⟨r, h1, h2, _⟩ := slice_reads hs h excl
  have hr := sliceGroups_runs tar a n
  rw [filter_flatten hr, groups_of_runs (isRuns_filter hr hd _)] at h2
  refine ⟨r, h1, fun xs => ?_⟩
  rw [reads_iff] at h2 ⊢
  rw [← h2]

/-- **C42, the part that holds**: the sample number `k` that is delivered from a slice is restored by its restore key if no sample before it in the
slice is excluded. What is missing: this holds only then, see `C42_violated`. -/
theorem C42_restore_partial (hs : Sized tar) {name : String} {a n k : Nat}
    (s : Smp (Raw B)) (hm : (samplesOf name a ((sliceGroups tar a n).filter (fun g => !excl (baseOf g))))[k]? = some s)
    (hx : ∀ g ∈ (sliceGroups tar a n).take (k + 1), excl (baseOf g) = false) : restoreRaw tar excl name s.key = some s := by
  obtain ⟨g, hg, rfl⟩ := samplesOf_getElem? hm
  have hg' : (sliceGroups tar a n)[k]? = some g := by
    clear hm
    generalize sliceGroups tar a n = gs at hg hx
    induction k generalizing gs with
    | zero =>
      cases gs with
      | nil => simp at hg
      | cons g' gs =>
        rw [List.filter_cons_of_pos (by simp [hx g' (by simp)])] at hg
        simpa using hg
    | succ k ih =>
      cases gs with
      | nil => simp at hg
      | cons g' gs =>
        rw [List.filter_cons_of_pos (by simp [hx g' (by simp)])] at hg
        simp only [List.getElem?_cons_succ] at hg ⊢
        exact ih gs hg (fun g hg => hx g (by simp only [List.take_succ_cons]; exact List.mem_cons_of_mem _ hg))
  have hgr := sliceGroups_runs tar a n
  refine restore_spec hs ?_ ?_
  · unfold sliceGroups at hg'
    rw [List.getElem?_take] at hg'
    split at hg'
    · rwa [List.getElem?_drop] at hg'
    · cases hg'
  · intro e he
    have hbase : e.base = baseOf g := by
      have hgm := List.mem_of_getElem? hg'
      clear hm hg hx hg'
      generalize sliceGroups tar a n = gs at hgr hgm
      induction gs with
      | nil => cases hgm
      | cons g' gs ih =>
        rcases List.mem_cons.1 hgm with rfl | hgm
        · obtain ⟨⟨e', t, rfl, h2, _⟩, _⟩ := hgr
          rcases List.mem_cons.1 he with rfl | he
          · rfl
          · exact h2 e he
        · exact ih hgr.2 hgm
    rw [hbase]
    have hlt := (List.getElem?_eq_some_iff.1 hg').1
    apply hx
    apply List.mem_of_getElem? (i := k)
    rw [List.getElem?_take, if_pos (by omega), hg']

/-- A shard with three samples `x`, `y`, `z`, the second with two files, and with other members in between -/
def exTar : List (Member Nat) :=
  [⟨512, false, "dir/".toList, 0⟩, ⟨1024, true, "x.txt".toList, 1⟩, ⟨1024, true, "__index__/y.txt".toList, 7⟩,
   ⟨1024, true, "y.txt".toList, 2⟩, ⟨2048, true, "y.seg.png".toList, 3⟩, ⟨1024, true, "z.txt".toList, 4⟩]

/-- Its index: the first sample begins behind the directory, the end is behind the last member. -/
example : tarIndex exTar = [512, 2560, 5632, 6656] ∧ tarCount exTar = 3 := by decide +kernel

/-- The hypotheses are satisfiable. -/
example : Sized exTar ∧ ((sliceGroups exTar 1 2).map baseOf).Nodup := by
  constructor
  · intro m hm
    simp only [exTar, List.mem_cons, List.not_mem_nil, or_false] at hm
    rcases hm with rfl | rfl | rfl | rfl | rfl | rfl <;> decide
  · decide +kernel

/-- Reading samples 1 and 2 -/
example : (sliceGroups exTar 1 2).map (fun g => (baseOf g, partsOf g)) =
    [("y".toList, [("txt".toList, 2), ("seg.png".toList, 3)]), ("z".toList, [("txt".toList, 4)])] := by decide +kernel

/-- Exclude the first sample. -/
def exExcl : Name → Bool := fun b => b = "x".toList

/-- **C42 is violated**: with the first sample `x` excluded, `y` and `z` are delivered, with the restore keys number 0 and 1. Restoring number 0
fails (this is `x`, which is excluded), and restoring number 1, the key of `z`, gives `y`. -/
theorem C42_violated :
    (samplesOf "s" 0 ((sliceGroups exTar 0 3).filter (fun g => !exExcl (baseOf g)))).map (fun s => (s.content.base, s.key)) =
      [("y".toList, [.str "Webdataset", .str "s", .num 0]), ("z".toList, [.str "Webdataset", .str "s", .num 1])] ∧
    restoreRaw exTar exExcl "s" [.str "Webdataset", .str "s", .num 0] = none ∧
    (restoreRaw exTar exExcl "s" [.str "Webdataset", .str "s", .num 1]).map (·.content.base) = some "y".toList := by
  refine ⟨by decide +kernel, by decide +kernel, by decide +kernel⟩

end Verif.Wds
