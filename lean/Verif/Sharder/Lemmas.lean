import Verif.Sharder.Spec
import Verif.Float.Lemmas
import Mathlib.Data.List.Perm.Basic
import Mathlib.Data.List.Range
import Mathlib.Data.List.Forall2
import Mathlib.Algebra.BigOperators.Group.List.Basic

/-! Helper lemmas for the sharding properties. -/

namespace Verif.Sharder
open Verif.Float

/-- The cells `o, o+1, ..., o+n-1` of all columns of a shard. -/
def cells (s : Subshards) (o n : ℕ) : List (List (String × ℕ)) :=
  (List.range n).map fun j => s.cols.map fun c => (c.name, o + j)

theorem samples_slice (s : Subshards) (o n : ℕ) : (s.slice o n).samples = cells s o n := by
  unfold Subshards.samples cells Subshards.sampleAt Subshards.cols Subshards.slice
  simp [Function.comp_def]

theorem samples_whole (s : Subshards) (h : ∀ c ∈ s.cols, c.offset = 0) :
    s.samples = cells s 0 s.head.count := by
  unfold Subshards.samples cells Subshards.sampleAt
  refine List.map_congr_left fun j _ => List.map_congr_left fun c hc => ?_
  rw [h c hc]

theorem cells_length (s : Subshards) (o n : ℕ) : (cells s o n).length = n := by simp [cells]

theorem cells_add (s : Subshards) (o n m : ℕ) :
    cells s o (n + m) = cells s o n ++ cells s (o + n) m := by
  unfold cells
  rw [List.range_add, List.map_append, List.map_map]
  congr 1
  refine List.map_congr_left fun j _ => List.map_congr_left fun c _ => ?_
  simp [Nat.add_assoc]

theorem cells_drop (s : Subshards) (o n k : ℕ) (h : k ≤ n) :
    (cells s o n).drop k = cells s (o + k) (n - k) := by
  obtain ⟨m, rfl⟩ := Nat.exists_eq_add_of_le h
  rw [cells_add, List.drop_append_of_le_length (by simp [cells_length]),
    List.drop_of_length_le (by simp [cells_length])]
  simp

theorem cells_take (s : Subshards) (o n k : ℕ) (h : k ≤ n) :
    (cells s o n).take k = cells s o k := by
  obtain ⟨m, rfl⟩ := Nat.exists_eq_add_of_le h
  rw [cells_add, List.take_append_of_le_length (by simp [cells_length]),
    List.take_of_length_le (by simp [cells_length])]

theorem samples_length (s : Subshards) : s.samples.length = s.head.count := by
  simp [Subshards.samples]

theorem samplesOf_length (l : List Subshards) : (samplesOf l).length = total l := by
  unfold samplesOf total
  rw [List.length_flatMap]
  simp [samples_length]

theorem samplesOf_nil : samplesOf [] = [] := rfl

theorem samplesOf_append (a b : List Subshards) : samplesOf (a ++ b) = samplesOf a ++ samplesOf b := by
  simp [samplesOf]

theorem samplesOf_cons (a : Subshards) (b : List Subshards) :
    samplesOf (a :: b) = a.samples ++ samplesOf b := by
  simp [samplesOf]

theorem samplesOf_filter (l : List Subshards) :
    samplesOf (l.filter fun s => s.head.count > 0) = samplesOf l := by
  induction l with
  | nil => rfl
  | cons a l ih =>
    by_cases h : a.head.count > 0
    · rw [List.filter_cons_of_pos (by simpa using h), samplesOf_cons, samplesOf_cons, ih]
    · rw [List.filter_cons_of_neg (by simpa using h), samplesOf_cons, ih]
      have h0 : a.head.count = 0 := by omega
      have : a.samples = [] := by simp [Subshards.samples, h0]
      rw [this]; rfl

/-! ### `findShard` -/

theorem findShard_some {t c l sk c' f r} (h : findShard t c l = some (sk, c', f, r)) :
    l = sk ++ f :: r ∧ c' = c + total sk ∧ t ≤ c' + f.head.count ∧ (sk ≠ [] → c' < t) := by
  induction l generalizing c sk with
  | nil => simp [findShard] at h
  | cons s rest ih =>
    unfold findShard at h
    split_ifs at h with hlt
    · split at h
      · simp at h
      · rename_i sk2 c2 f2 r2 heq
        simp only [Option.some.injEq, Prod.mk.injEq] at h
        obtain ⟨rfl, rfl, rfl, rfl⟩ := h
        obtain ⟨h1, h2, h3, h4⟩ := ih heq
        refine ⟨by simp [h1], ?_, h3, fun _ => ?_⟩
        · rw [h2]; simp [total]; omega
        · by_cases hsk : sk2 = []
          · subst hsk; simp [total] at h2; omega
          · exact h4 hsk
    · simp only [Option.some.injEq, Prod.mk.injEq] at h
      obtain ⟨rfl, rfl, rfl, rfl⟩ := h
      exact ⟨rfl, by simp [total], by omega, by simp⟩

theorem findShard_exists (t c : ℕ) (l : List Subshards) (hl : l ≠ []) (ht : t ≤ c + total l) :
    ∃ x, findShard t c l = some x := by
  induction l generalizing c with
  | nil => exact absurd rfl hl
  | cons s rest ih =>
    unfold findShard
    split_ifs with hlt
    · have hr : rest ≠ [] := by
        rintro rfl
        simp [total] at ht; omega
      obtain ⟨x, hx⟩ := ih (c + s.head.count) hr (by simp [total] at ht ⊢; omega)
      rw [hx]; exact ⟨_, rfl⟩
    · exact ⟨_, rfl⟩

/-- Searching for a later target may start where the earlier search ended. -/
theorem findShard_resume {a b c l sk c' f r} (hab : a ≤ b)
    (h : findShard a c l = some (sk, c', f, r)) :
    findShard b c l = (findShard b c' (f :: r)).map
      fun x => (sk ++ x.1, x.2.1, x.2.2.1, x.2.2.2) := by
  induction l generalizing c sk with
  | nil => simp [findShard] at h
  | cons s rest ih =>
    rw [findShard] at h
    split_ifs at h with hlt
    · split at h
      · simp at h
      · rename_i sk2 c2 f2 r2 heq
        simp only [Option.some.injEq, Prod.mk.injEq] at h
        obtain ⟨rfl, rfl, rfl, rfl⟩ := h
        have := ih heq
        conv_lhs => unfold findShard
        rw [if_pos (by omega), this]
        cases findShard b c2 (f2 :: r2) with
        | none => rfl
        | some x => rfl
    · simp only [Option.some.injEq, Prod.mk.injEq] at h
      obtain ⟨rfl, rfl, rfl, rfl⟩ := h
      cases findShard b c (s :: rest) with
      | none => rfl
      | some x => rfl

/-! ### `splitShards` is determined by consecutive pairs of offsets -/

theorem splitLoop_cons (mx : Option ℕ) (t : ℕ) (ts : List ℕ) (cum so : ℕ) (cur : Subshards)
    (rest : List Subshards) :
    splitLoop mx (t :: ts) cum so cur rest =
      (match splitLoop mx [t] cum so cur rest with
       | .error e => .error e
       | .ok p =>
         match findShard t cum (cur :: rest) with
         | none => .error .invalidShardDistribution
         | some (_, cum', found, rest') =>
           match splitLoop mx ts cum' (t - cum') found rest' with
           | .error e => .error e
           | .ok q => .ok (p ++ q)) := by
  conv_lhs => rw [splitLoop]
  conv_rhs => rw [splitLoop]
  cases findShard t cum (cur :: rest) with
  | none => rfl
  | some x => rfl

/-- The slices for the sample range `[a, b)`. -/
def part (shards : List Subshards) (mx : Option ℕ) (a b : ℕ) : Except Err (List Subshards) :=
  (splitShards shards [a, b] mx).map fun l => l.headD []

theorem splitShards_pair (shards : List Subshards) (mx : Option ℕ) (a b : ℕ) :
    splitShards shards [a, b] mx = (part shards mx a b).map fun p => [p] := by
  unfold part splitShards
  cases h : findShard a 0 shards with
  | none => simp [h, Except.map]
  | some x =>
    obtain ⟨sk, cum, cur, rest⟩ := x
    cases h2 : findShard b cum (cur :: rest) with
    | none => simp [h, h2, splitLoop, Except.map]
    | some y => simp [h, h2, splitLoop, Except.map]

theorem splitShards_cons (shards : List Subshards) (mx : Option ℕ) (a b : ℕ) (hab : a ≤ b)
    (ts : List ℕ) :
    splitShards shards (a :: b :: ts) mx =
      (match part shards mx a b with
       | .error e => .error e
       | .ok p =>
         match splitShards shards (b :: ts) mx with
         | .error e => .error e
         | .ok q => .ok (p :: q)) := by
  have key := splitShards_pair shards mx a b
  unfold splitShards at key ⊢
  cases hf : findShard a 0 shards with
  | none =>
    simp only [hf] at key ⊢
    unfold part splitShards
    simp [hf, Except.map]
  | some x =>
    obtain ⟨sk, cum, cur, rest⟩ := x
    simp only [hf] at key ⊢
    rw [splitLoop_cons, key, findShard_resume hab hf]
    cases hp : part shards mx a b with
    | error e => simp [Except.map]
    | ok p =>
      simp only [Except.map]
      cases hg : findShard b cum (cur :: rest) with
      | none => rfl
      | some y =>
        obtain ⟨sk2, cum2, cur2, rest2⟩ := y
        simp only [Option.map]
        cases splitLoop mx ts cum2 (b - cum2) cur2 rest2 <;> simp

/-! ### One part -/

/-- What has to be known about `_split_shard` (equality: lossless, sublist: no duplicates). -/
structure Covers (mx : Option ℕ) (Rel : List (List (String × ℕ)) → List (List (String × ℕ)) → Prop)
    (bound : ℕ) : Prop where
  refl : ∀ x, Rel x x
  app : ∀ a b c d, Rel a b → Rel c d → Rel (a ++ c) (b ++ d)
  split : ∀ s a b, a ≤ b → b ≤ bound → Rel (samplesOf (splitShard s a b mx)) (cells s a (b - a))

theorem Covers.flatMap {mx Rel bound} (hc : Covers mx Rel bound) (l : List Subshards)
    (f : Subshards → List Subshards) (h : ∀ s ∈ l, Rel (samplesOf (f s)) s.samples) :
    Rel (samplesOf (l.flatMap f)) (samplesOf l) := by
  induction l with
  | nil => exact hc.refl _
  | cons a l ih =>
    rw [List.flatMap_cons, samplesOf_append, samplesOf_cons]
    exact hc.app _ _ _ _ (h a (by simp)) (ih fun s hs => h s (by simp [hs]))

theorem total_append (a b : List Subshards) : total (a ++ b) = total a + total b := by
  simp [total]

theorem total_cons (a : Subshards) (b : List Subshards) : total (a :: b) = a.head.count + total b := by
  simp [total]

theorem count_le_total {s : Subshards} {l : List Subshards} (h : s ∈ l) : s.head.count ≤ total l := by
  induction l with
  | nil => simp at h
  | cons a l ih =>
    rw [total_cons]
    rcases List.mem_cons.mp h with rfl | h
    · omega
    · have := ih h; omega

theorem part_spec (shards : List Subshards) (mx : Option ℕ) (Rel) (hc : Covers mx Rel (total shards))
    (hw : WholeShards shards) (hne : shards ≠ []) (a b : ℕ) (hab : a ≤ b) (hb : b ≤ total shards) :
    ∃ p, part shards mx a b = .ok p ∧
      Rel (samplesOf p) (((samplesOf shards).drop a).take (b - a)) := by
  obtain ⟨⟨sk, cum, cur, rest⟩, hfa⟩ := findShard_exists a 0 shards hne (by omega)
  obtain ⟨e1, e2, e3, e4⟩ := findShard_some hfa
  have hcum : cum = total sk := by omega
  have htot : total shards = cum + total (cur :: rest) := by
    rw [e1, total_append, hcum]
  obtain ⟨⟨sk2, cum2, found, rest2⟩, hfb⟩ :=
    findShard_exists b cum (cur :: rest) (by simp) (by omega)
  obtain ⟨g1, g2, g3, g4⟩ := findShard_some hfb
  have hcuma : cum ≤ a := by
    by_cases h : sk = []
    · subst h; simp [total] at hcum; omega
    · have := e4 h; omega
  have hwc : ∀ s ∈ cur :: rest, ∀ c ∈ s.cols, c.offset = 0 := fun s hs =>
    hw s (by rw [e1]; exact List.mem_append_right _ hs)
  have hle : ∀ s ∈ cur :: rest, s.head.count ≤ total shards := fun s hs =>
    count_le_total (by rw [e1]; exact List.mem_append_right _ hs)
  -- the suffix of the dataset starting at the current shard
  have hdrop : (samplesOf shards).drop a = (samplesOf (cur :: rest)).drop (a - cum) := by
    rw [e1, samplesOf_append]
    have : a = (samplesOf sk).length + (a - cum) := by rw [samplesOf_length]; omega
    conv_lhs => rw [this]
    rw [List.drop_length_add_append]
  unfold part splitShards
  simp only [hfa, splitLoop, hfb, Except.map, List.headD_cons]
  refine ⟨_, rfl, ?_⟩
  rw [hdrop]
  cases sk2 with
  | nil =>
    simp only [List.nil_append, List.cons.injEq] at g1
    obtain ⟨rfl, rfl⟩ := g1
    have hc2 : cum2 = cum := by simpa [total] using g2
    subst hc2
    simp only
    have hs := hc.split cur (a - cum2) (b - cum2) (by omega) (by
      have := hle cur (by simp)
      omega)
    have : ((samplesOf (cur :: rest)).drop (a - cum2)).take (b - a)
        = cells cur (a - cum2) (b - cum2 - (a - cum2)) := by
      rw [samplesOf_cons, samples_whole cur (hwc cur (by simp)),
        List.drop_append_of_le_length (by rw [cells_length]; omega),
        cells_drop _ _ _ _ (by omega),
        List.take_append_of_le_length (by rw [cells_length]; omega),
        cells_take _ _ _ _ (by omega)]
      congr 1 <;> omega
    rw [this]; exact hs
  | cons first middle =>
    simp only [List.cons_append, List.cons.injEq] at g1
    obtain ⟨rfl, g1⟩ := g1
    have hlt := g4 (by simp)
    have hfm : found ∈ cur :: rest := by rw [g1]; simp
    have hmm : ∀ s ∈ middle, s ∈ cur :: rest := fun s hs => by rw [g1]; simp [hs]
    rw [total_cons] at g2
    simp only
    have h1 : Rel (samplesOf (if cur.head.count > a - cum then
        splitShard cur (a - cum) cur.head.count mx else []))
        (cells cur (a - cum) (cur.head.count - (a - cum))) := by
      split_ifs with hgt
      · exact hc.split _ _ _ (by omega) (hle _ (by simp))
      · have : cur.head.count - (a - cum) = 0 := by omega
        rw [this]
        exact hc.refl _
    have h2 : Rel (samplesOf (middle.flatMap fun s => splitShard s s.head.offset s.head.count mx))
        (samplesOf middle) := by
      apply hc.flatMap
      intro s hs
      have ho : s.head.offset = 0 := hwc s (hmm s hs) s.head (by simp [Subshards.cols])
      rw [samples_whole s (hwc s (hmm s hs)), ho]
      exact hc.split s 0 _ (by omega) (hle s (hmm s hs))
    have h3 : Rel (samplesOf (splitShard found found.head.offset (b - cum2) mx))
        (cells found 0 (b - cum2)) := by
      have ho : found.head.offset = 0 := hwc found hfm found.head (by simp [Subshards.cols])
      rw [ho]
      exact hc.split found 0 _ (by omega) (by have := hle _ hfm; omega)
    have : ((samplesOf (cur :: rest)).drop (a - cum)).take (b - a)
        = cells cur (a - cum) (cur.head.count - (a - cum)) ++ samplesOf middle
          ++ cells found 0 (b - cum2) := by
      rw [samplesOf_cons, samples_whole cur (hwc cur (by simp)), g1,
        samplesOf_append, samplesOf_cons, samples_whole found (hwc found hfm),
        List.drop_append_of_le_length (by rw [cells_length]; omega),
        cells_drop _ _ _ _ (by omega), Nat.zero_add]
      have hn : b - a = (cells cur (a - cum) (cur.head.count - (a - cum))
          ++ samplesOf middle).length + (b - cum2) := by
        rw [List.length_append, cells_length, samplesOf_length]; omega
      rw [hn, ← List.append_assoc, List.take_length_add_append,
        List.take_append_of_le_length (by rw [cells_length]; omega),
        cells_take _ _ _ _ (by omega)]
    rw [this, samplesOf_append, samplesOf_append]
    exact hc.app _ _ _ _ (hc.app _ _ _ _ h1 h2) h3

theorem covers_none (bound : ℕ) : Covers none Eq bound where
  refl _ := rfl
  app _ _ _ _ h1 h2 := by rw [h1, h2]
  split s a b _ _ := by simp [splitShard, samplesOf, samples_slice]

/-! ### offsets -/

theorem interleave_perm {α : Type} (a b : List α) : (interleave a b).Perm (a ++ b) := by
  induction a generalizing b with
  | nil => simp [interleave]
  | cons x xs ih =>
    cases b with
    | nil => simp [interleave]
    | cons y ys =>
      unfold interleave
      refine List.Perm.cons x ?_
      exact ((ih ys).cons y).trans List.perm_middle.symm

theorem bitRev_perm (l : List ℕ) : (bitRev l).Perm l := by
  induction h : l.length using Nat.strong_induction_on generalizing l with
  | _ n ih =>
    unfold bitRev
    split_ifs with h2
    · exact List.Perm.refl _
    · refine (interleave_perm _ _).trans ?_
      have p1 := ih _ (by rw [← h, List.length_take]; omega) (l.take (l.length / 2)) rfl
      have p2 := ih _ (by rw [← h, List.length_drop]; omega) (l.drop (l.length / 2)) rfl
      exact (p1.append p2).trans (by rw [List.take_append_drop])

theorem foldl_set_length (ps : List (ℕ × ℕ)) (acc : List ℕ) :
    (ps.foldl (fun acc p => acc.set p.1 p.2) acc).length = acc.length := by
  induction ps generalizing acc with
  | nil => rfl
  | cons p ps ih => simp [ih]

theorem foldl_set_not_mem (ps : List (ℕ × ℕ)) (acc : List ℕ) (i : ℕ) (h : i ∉ ps.map Prod.fst) :
    (ps.foldl (fun acc p => acc.set p.1 p.2) acc)[i]? = acc[i]? := by
  induction ps generalizing acc with
  | nil => rfl
  | cons p ps ih =>
    simp only [List.map_cons, List.mem_cons, not_or] at h
    simp only [List.foldl_cons]
    rw [ih _ h.2, List.getElem?_set_ne (Ne.symm h.1)]

theorem foldl_set_mem (ps : List (ℕ × ℕ)) (acc : List ℕ) (hn : (ps.map Prod.fst).Nodup)
    (p : ℕ × ℕ) (hp : p ∈ ps) (hlt : p.1 < acc.length) :
    (ps.foldl (fun acc p => acc.set p.1 p.2) acc)[p.1]? = some p.2 := by
  induction ps generalizing acc with
  | nil => simp at hp
  | cons q ps ih =>
    simp only [List.map_cons, List.nodup_cons] at hn
    simp only [List.foldl_cons]
    rcases List.mem_cons.mp hp with rfl | hp
    · rw [foldl_set_not_mem _ _ _ hn.1]
      simp [hlt]
    · exact ih _ hn.2 hp (by simpa using hlt)

theorem linearCounts_length (t g : ℕ) (rot : ℤ) : (linearCounts t g rot).length = g := by
  simp [linearCounts]

theorem bitRev_length (g : ℕ) : (bitRev (List.range g)).length = g := by
  rw [(bitRev_perm _).length_eq, List.length_range]

theorem permuteCounts_length (s c : List ℕ) : (permuteCounts s c).length = c.length := by
  unfold permuteCounts; rw [foldl_set_length]; simp

/-- The worker reached at position `j` of the bit reversal sequence gets linear count `j`. -/
theorem permuteCounts_get (g : ℕ) (c : List ℕ) (hc : c.length = g) (j : ℕ) (hj : j < g) :
    (permuteCounts (bitRev (List.range g)) c)[(bitRev (List.range g))[j]'(by rw [bitRev_length]; exact hj)]?
      = some (c[j]'(by omega)) := by
  unfold permuteCounts
  have hlen := bitRev_length g
  have hm : (bitRev (List.range g))[j]'(by omega) ∈ List.range g :=
    (bitRev_perm _).mem_iff.mp (List.getElem_mem _)
  refine foldl_set_mem _ _ ?_ ((bitRev (List.range g))[j]'(by omega), c[j]'(by omega)) ?_ ?_
  · rw [List.map_fst_zip (by omega)]
    exact ((bitRev_perm _).nodup_iff).mpr List.nodup_range
  · have : j < ((bitRev (List.range g)).zip c).length := by simp [List.length_zip]; omega
    have h2 := List.getElem_mem this
    rwa [List.getElem_zip] at h2
  · simpa [hc] using List.mem_range.mp hm

theorem permuteCounts_perm (g : ℕ) (c : List ℕ) (hc : c.length = g) :
    (permuteCounts (bitRev (List.range g)) c).Perm c := by
  have hlen := bitRev_length g
  set b := bitRev (List.range g) with hb
  set n := permuteCounts b c with hn
  have hnl : n.length = g := by rw [hn, permuteCounts_length, hc]
  have h1 : b.map (fun w => n.getD w 0) = c := by
    apply List.ext_getElem
    · simp [hlen, hc]
    · intro j h1 h2
      have hj : j < g := by omega
      simp only [List.getElem_map]
      have := permuteCounts_get g c hc j hj
      simp only [List.getD_eq_getElem?_getD, hn, hb, this, Option.getD_some]
  have h2 : (List.range g).map (fun w => n.getD w 0) = n := by
    apply List.ext_getElem
    · simp [hnl]
    · intro j h1 h2
      simp [List.getElem?_eq_getElem h2]
  calc n = (List.range g).map (fun w => n.getD w 0) := h2.symm
    _ |>.Perm (b.map (fun w => n.getD w 0)) := ((bitRev_perm _).map _).symm
    _ = c := h1

/-- Number of indices in the rotated window. -/
theorem rotated_perm (g : ℕ) (rot : ℤ) :
    ((List.range g).map fun (i : ℕ) => (((i : ℤ) - rot + g) % g).toNat).Perm (List.range g) := by
  have hnd : ((List.range g).map fun (i : ℕ) => (((i : ℤ) - rot + g) % g).toNat).Nodup := by
    refine List.Nodup.map_on ?_ List.nodup_range
    intro x hx y hy hxy
    simp only [List.mem_range] at hx hy
    have hg : (0 : ℤ) < g := by omega
    have h1 := Int.emod_nonneg ((x : ℤ) - rot + g) (by omega : (g : ℤ) ≠ 0)
    have h2 := Int.emod_nonneg ((y : ℤ) - rot + g) (by omega : (g : ℤ) ≠ 0)
    have h3 : ((x : ℤ) - rot + g) % g = ((y : ℤ) - rot + g) % g := by omega
    have h5 : ((x : ℤ) - rot + g) - ((y : ℤ) - rot + g) = (x : ℤ) - y := by ring
    have h6 : (g : ℤ) ∣ (x : ℤ) - y := by
      rw [← h5]
      exact Int.dvd_of_emod_eq_zero (Int.emod_eq_emod_iff_emod_sub_eq_zero.mp h3)
    obtain ⟨k, hk⟩ := h6
    have hk0 : k = 0 := by
      by_contra hne
      rcases lt_or_gt_of_ne hne with h | h
      · have : (g : ℤ) * k ≤ -g := by nlinarith
        omega
      · have : (g : ℤ) * k ≥ g := by nlinarith
        omega
    subst hk0
    omega
  refine (List.perm_of_nodup_nodup_toFinset_eq hnd List.nodup_range ?_)
  apply Finset.eq_of_subset_of_card_le
  · intro z hz
    simp only [List.mem_toFinset, List.mem_map, List.mem_range] at hz ⊢
    obtain ⟨i, hi, rfl⟩ := hz
    have hg : (0 : ℤ) < g := by omega
    have := Int.emod_lt_of_pos ((i : ℤ) - rot + g) hg
    have := Int.emod_nonneg ((i : ℤ) - rot + g) (by omega : (g : ℤ) ≠ 0)
    omega
  · rw [List.toFinset_card_of_nodup hnd, List.toFinset_card_of_nodup List.nodup_range]
    simp

theorem sum_map_ite (l : List ℕ) (q r : ℕ) :
    (l.map fun i => if i < r then q + 1 else q).sum = l.length * q + l.countP (· < r) := by
  induction l with
  | nil => simp
  | cons a l ih =>
    simp only [List.map_cons, List.sum_cons, ih, List.length_cons, List.countP_cons]
    by_cases h : a < r <;> simp [h] <;> ring

theorem countP_range_lt (g r : ℕ) (h : r ≤ g) : (List.range g).countP (· < r) = r := by
  induction g with
  | zero => simp; omega
  | succ g ih =>
    rw [List.range_succ, List.countP_append]
    by_cases h2 : r ≤ g
    · rw [ih h2]; simp; omega
    · have : r = g + 1 := by omega
      subst this
      simp only [List.countP_singleton]
      have : (List.range g).countP (fun x => decide (x < g + 1)) = g := by
        rw [List.countP_eq_length.mpr]
        · simp
        · intro a ha; simp at ha ⊢; omega
      rw [this]; simp

theorem linearCounts_eq (t g : ℕ) (rot : ℤ) (hg : 0 < g) (ht : t < 2 ^ 53) :
    linearCounts t g rot = (List.range g).map fun (i : ℕ) =>
      if (((i : ℤ) - rot + g) % g).toNat < t % g then t / g + 1 else t / g := by
  unfold linearCounts
  refine List.map_congr_left fun i _ => ?_
  rw [pyInt_pyDiv t g ht hg]
  have := Int.emod_nonneg ((i : ℤ) - rot + g) (by omega : (g : ℤ) ≠ 0)
  have h2 : (((i : ℤ) - rot + g) % g < ((t % g : ℕ) : ℤ)) ↔
      (((i : ℤ) - rot + g) % g).toNat < t % g := by omega
  simp only [h2]

theorem linearCounts_sum (t g : ℕ) (rot : ℤ) (hg : 0 < g) (ht : t < 2 ^ 53) :
    (linearCounts t g rot).sum = t := by
  rw [linearCounts_eq t g rot hg ht]
  have : ((List.range g).map fun (i : ℕ) =>
      if (((i : ℤ) - rot + g) % g).toNat < t % g then t / g + 1 else t / g)
      = ((List.range g).map fun (i : ℕ) => (((i : ℤ) - rot + g) % g).toNat).map
          fun i => if i < t % g then t / g + 1 else t / g := by
    rw [List.map_map]; rfl
  rw [this, (List.Perm.map _ (rotated_perm g rot)).sum_eq, sum_map_ite, List.length_range,
    countP_range_lt _ _ (Nat.mod_lt t hg).le]
  have := Nat.div_add_mod t g
  linarith

theorem cumulative_length (acc : ℕ) (l : List ℕ) : (cumulative acc l).length = l.length + 1 := by
  induction l generalizing acc with
  | nil => rfl
  | cons c cs ih => simp [cumulative, ih]

theorem cumulative_get (acc : ℕ) (l : List ℕ) (j : ℕ) (hj : j ≤ l.length) :
    (cumulative acc l)[j]? = some (acc + (l.take j).sum) := by
  induction l generalizing acc j with
  | nil => simp at hj; subst hj; simp [cumulative]
  | cons c cs ih =>
    cases j with
    | zero => simp [cumulative]
    | succ j =>
      simp only [cumulative, List.getElem?_cons_succ, List.take_succ_cons, List.sum_cons]
      rw [ih _ _ (by simpa using hj)]
      simp; ring

/-- The per worker sample counts of all global workers. -/
def workerCounts (t g : ℕ) (rot : ℤ) : List ℕ :=
  permuteCounts (bitRev (List.range g)) (linearCounts t g rot)

theorem workerCounts_length (t g : ℕ) (rot : ℤ) : (workerCounts t g rot).length = g := by
  simp [workerCounts, permuteCounts_length, linearCounts_length]

theorem workerCounts_sum (t g : ℕ) (rot : ℤ) (hg : 0 < g) (ht : t < 2 ^ 53) :
    (workerCounts t g rot).sum = t := by
  unfold workerCounts
  rw [(permuteCounts_perm g _ (linearCounts_length _ _ _)).sum_eq, linearCounts_sum t g rot hg ht]

theorem workerCounts_mem (t g : ℕ) (rot : ℤ) (hg : 0 < g) (ht : t < 2 ^ 53) :
    ∀ c ∈ workerCounts t g rot, c = t / g ∨ c = t / g + 1 := by
  intro c hc
  have := (permuteCounts_perm g _ (linearCounts_length t g rot)).mem_iff.mp hc
  rw [linearCounts_eq t g rot hg ht] at this
  simp only [List.mem_map] at this
  obtain ⟨i, _, rfl⟩ := this
  split_ifs <;> simp

/-- Start of the sample range of global worker `j`. -/
def startOf (t g : ℕ) (rot : ℤ) (j : ℕ) : ℕ := ((workerCounts t g rot).take j).sum

theorem startOf_succ (t g : ℕ) (rot : ℤ) (j : ℕ) (hj : j < g) :
    startOf t g rot (j + 1) = startOf t g rot j + (workerCounts t g rot).getD j 0 := by
  unfold startOf
  have h : j < (workerCounts t g rot).length := by rw [workerCounts_length]; exact hj
  rw [List.sum_take_succ _ _ h]
  simp [List.getElem?_eq_getElem h]

theorem startOf_mono (t g : ℕ) (rot : ℤ) (j : ℕ) : startOf t g rot j ≤ startOf t g rot (j + 1) := by
  unfold startOf
  by_cases h : j < (workerCounts t g rot).length
  · rw [List.sum_take_succ _ _ h]; omega
  · rw [List.take_of_length_le (by omega), List.take_of_length_le (by omega)]

theorem startOf_zero (t g : ℕ) (rot : ℤ) : startOf t g rot 0 = 0 := by simp [startOf]

theorem startOf_last (t g : ℕ) (rot : ℤ) (hg : 0 < g) (ht : t < 2 ^ 53) : startOf t g rot g = t := by
  unfold startOf
  rw [List.take_of_length_le (by rw [workerCounts_length]), workerCounts_sum t g rot hg ht]

theorem startOf_le (t g : ℕ) (rot : ℤ) (j : ℕ) (hg : 0 < g) (ht : t < 2 ^ 53) :
    startOf t g rot j ≤ t := by
  conv_rhs => rw [← workerCounts_sum t g rot hg ht]
  unfold startOf
  exact (List.take_sublist _ _).sum_le_sum (by simp)

theorem globalOffsets_get (t g : ℕ) (rot : ℤ) (j : ℕ) (hj : j ≤ g) :
    (globalOffsets t g rot)[j]? = some (startOf t g rot j) := by
  unfold globalOffsets startOf
  rw [cumulative_get _ _ _ (by rw [permuteCounts_length, linearCounts_length]; exact hj)]
  simp [workerCounts]

theorem globalOffsets_length (t g : ℕ) (rot : ℤ) : (globalOffsets t g rot).length = g + 1 := by
  unfold globalOffsets
  rw [cumulative_length, permuteCounts_length, linearCounts_length]

theorem local_offsets (t g : ℕ) (rot : ℤ) (a n : ℕ) (h : a + n ≤ g) :
    ((globalOffsets t g rot).drop a).take (n + 1) =
      (List.range (n + 1)).map fun i => startOf t g rot (a + i) := by
  apply List.ext_getElem?
  intro i
  by_cases hi : i < n + 1
  · rw [List.getElem?_take_of_lt hi, List.getElem?_drop, globalOffsets_get _ _ _ _ (by omega)]
    simp [List.getElem?_range hi]
  · rw [List.getElem?_eq_none (by simp; omega), List.getElem?_eq_none (by simp; omega)]

/-- The (unfiltered) parts for consecutive offsets `f a, f (a+1), ...`. -/
theorem splitShards_map (shards : List Subshards) (mx : Option ℕ) (f : ℕ → ℕ)
    (hmono : ∀ i, f i ≤ f (i + 1)) (a n : ℕ)
    (hok : ∀ i, i < n → ∃ p, part shards mx (f (a + i)) (f (a + i + 1)) = .ok p)
    (hfirst : ∃ x, findShard (f (a + n)) 0 shards = some x) :
    ∃ ps, splitShards shards ((List.range (n + 1)).map fun i => f (a + i)) mx = .ok ps ∧
      ps.length = n ∧
      ∀ i (_ : i < n), ∃ p, ps[i]? = some p ∧ part shards mx (f (a + i)) (f (a + i + 1)) = .ok p := by
  induction n generalizing a with
  | zero =>
    obtain ⟨x, hx⟩ := hfirst
    refine ⟨[], ?_, rfl, by simp⟩
    simp only [Nat.add_zero] at hx
    simp [splitShards, hx, splitLoop]
  | succ n ih =>
    obtain ⟨p, hp⟩ := hok 0 (by omega)
    obtain ⟨ps, h1, h2, h3⟩ := ih (a + 1) (fun i hi => by
      have := hok (i + 1) (by omega)
      have e : a + 1 + i = a + (i + 1) := by ring
      rw [e]; exact this) (by
      have e : a + 1 + n = a + (n + 1) := by ring
      rw [e]; exact hfirst)
    refine ⟨p :: ps, ?_, by simp [h2], ?_⟩
    · have e : (List.range (n + 1 + 1)).map (fun i => f (a + i))
          = f a :: f (a + 1) :: (List.range n).map (fun i => f (a + 1 + (i + 1))) := by
        rw [List.range_succ_eq_map, List.range_succ_eq_map]
        simp [Function.comp_def]
        intro i _
        congr 1; ring
      rw [e, splitShards_cons _ _ _ _ (hmono a)]
      have e2 : (List.range (n + 1)).map (fun i => f (a + 1 + i))
          = f (a + 1) :: (List.range n).map (fun i => f (a + 1 + (i + 1))) := by
        rw [List.range_succ_eq_map]
        simp [Function.comp_def]
      rw [e2] at h1
      simp only [Nat.add_zero] at hp
      rw [hp, h1]
    · intro i hi
      cases i with
      | zero => exact ⟨p, rfl, hp⟩
      | succ i =>
        obtain ⟨q, hq1, hq2⟩ := h3 i (by omega)
        refine ⟨q, by simpa using hq1, ?_⟩
        have e : a + (i + 1) = a + 1 + i := by ring
        rw [e]; exact hq2

/-- Main lemma: `shardWorkers` succeeds, and worker `i` of rank `r` gets the (filtered) part of its
global index. -/
theorem shardWorkers_parts (shards : List Subshards) (w : WorkerConfig) (mx : Option ℕ) (rot : ℤ)
    (Rel) (hc : Covers mx Rel (total shards)) (hw : WholeShards shards) (hne : shards ≠ [])
    (hr : w.rank < w.worldSize) (ht : total shards < 2 ^ 53) :
    ∃ ps, shardWorkers shards w mx rot = .ok ps ∧ ps.length = w.workers ∧
      ∀ i < w.workers, ∃ p,
        ps[i]? = some (p.filter fun s => s.head.count > 0) ∧
        part shards mx (startOf (total shards) w.globalWorkers rot (w.rank * w.workers + i))
          (startOf (total shards) w.globalWorkers rot (w.rank * w.workers + i + 1)) = .ok p ∧
        Rel (samplesOf p)
          (((samplesOf shards).drop
              (startOf (total shards) w.globalWorkers rot (w.rank * w.workers + i))).take
            (startOf (total shards) w.globalWorkers rot (w.rank * w.workers + i + 1)
              - startOf (total shards) w.globalWorkers rot (w.rank * w.workers + i))) := by
  have hn : 0 < w.workers := by unfold WorkerConfig.workers; omega
  have hbound : w.rank * w.workers + w.workers ≤ w.globalWorkers := by
    unfold WorkerConfig.globalWorkers
    calc w.rank * w.workers + w.workers = w.workers * (w.rank + 1) := by ring
      _ ≤ w.workers * w.worldSize := Nat.mul_le_mul_left _ hr
  have hg : 0 < w.globalWorkers := by omega
  set g := w.globalWorkers with hgdef
  set t := total shards with htdef
  have hpart : ∀ j, ∃ p, part shards mx (startOf t g rot j) (startOf t g rot (j + 1)) = .ok p ∧
      Rel (samplesOf p) (((samplesOf shards).drop (startOf t g rot j)).take
        (startOf t g rot (j + 1) - startOf t g rot j)) := fun j =>
    part_spec shards mx Rel hc hw hne _ _ (startOf_mono t g rot j) (startOf_le t g rot _ hg ht)
  obtain ⟨ps, h1, h2, h3⟩ := splitShards_map shards mx (startOf t g rot) (startOf_mono t g rot)
    (w.rank * w.workers) w.workers (fun i _ => (hpart _).imp fun p hp => hp.1)
    (findShard_exists _ 0 shards hne (by
      have := startOf_le t g rot (w.rank * w.workers + w.workers) hg ht
      omega))
  refine ⟨ps.map fun p => p.filter fun s => s.head.count > 0, ?_, by simp [h2], ?_⟩
  · unfold shardWorkers
    simp only
    rw [if_neg (by omega), ← hgdef]
    have ht2 : (shards.map (·.head.count)).sum = t := rfl
    rw [ht2, local_offsets t g rot _ _ hbound, if_neg (by simp), h1]
  · intro i hi
    obtain ⟨p, hp1, hp2⟩ := h3 i hi
    obtain ⟨p', hp3, hp4⟩ := hpart (w.rank * w.workers + i)
    rw [hp2] at hp3
    obtain rfl : p = p' := by simpa using hp3
    refine ⟨p, by simp [hp1], hp2, hp4⟩

end Verif.Sharder
