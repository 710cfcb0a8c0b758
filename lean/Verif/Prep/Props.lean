import Verif.Prep.Lemmas

/-!
# C43: splitting by ratios, C59: loading what was prepared

The shards are assigned in the order after shuffling. "Each shard in exactly one part" would be
`parts.flatMap shards = all shards`. The code computes with floats: the cumulated ratio may end below
one, and then the last shard is in no part.
-/

namespace Verif.Prep

open Verif.Float

/-- The full property: the lists of the parts, one after another, are the list of all shards (so each
shard is in exactly one part, once). -/
def AssignsAll (shards : List Shard) (parts : Dict (List String)) : Prop :=
  parts.flatMap Prod.snd = shards.map Shard.name

/-- **C43** (no shard twice). Whatever the ratios, the parts have the given names, in the given order,
and their lists are disjoint consecutive pieces of the list of shards: together they are its
beginning. -/
theorem C43_no_shard_twice_partial {shards : List Shard} {ratios : List (String × ℚ)}
    {parts : Dict (List String)} (hr : ∀ r ∈ ratios, 0 ≤ r.2) (hn : (ratios.map Prod.fst).Nodup)
    (h : splitRatio shards ratios = some parts) :
    parts.map Prod.fst = ratios.map Prod.fst ∧ parts.flatMap Prod.snd <+: shards.map Shard.name := by
  obtain ⟨h1, h2⟩ := splitRatio_flat hr hn h
  exact ⟨h1, h2 ▸ List.take_prefix _ _⟩

/-- If the names of the shards differ, no name is in two parts or twice in a part. -/
theorem C43_disjoint_partial {shards : List Shard} {ratios : List (String × ℚ)}
    {parts : Dict (List String)} (hr : ∀ r ∈ ratios, 0 ≤ r.2) (hn : (ratios.map Prod.fst).Nodup)
    (hs : (shards.map Shard.name).Nodup) (h : splitRatio shards ratios = some parts) :
    (parts.flatMap Prod.snd).Nodup :=
  hs.sublist (C43_no_shard_twice_partial hr hn h).2.sublist

/-- **C43** (at most one shard is lost): the lists of the parts are all shards, or all shards but the
last one. (For fewer than `2^53 / (2 p + 2)` shards and `p` parts.) -/
theorem C43_at_most_one_lost_partial {shards : List Shard} {ratios : List (String × ℚ)}
    {parts : Dict (List String)} (hr : ∀ r ∈ ratios, 0 ≤ r.2) (hn : (ratios.map Prod.fst).Nodup)
    (hne : ratios ≠ []) (hlen : shards.length * (2 * ratios.length + 2) < 2 ^ 53)
    (h : splitRatio shards ratios = some parts) :
    AssignsAll shards parts ∨ parts.flatMap Prod.snd = (shards.map Shard.name).dropLast := by
  obtain ⟨-, h2⟩ := splitRatio_flat hr hn h
  have hT : pySum (ratios.map Prod.snd) ≠ 0 := by
    intro h0
    simp [splitRatio, h0, hne] at h
  have h3 := total_ge ratios hr hT
  have h4 := end_ge shards.length (2 * ratios.length + 1) _ (by omega) (by push_cast; exact h3)
  unfold AssignsAll
  rw [h2]
  generalize pyInt (pyMul shards.length (total (normalize (pySum (ratios.map Prod.snd)) ratios) 0)) = k at *
  rcases Nat.lt_or_ge k shards.length with hk | hk
  · right
    rw [List.dropLast_eq_take, List.length_map]
    congr 1
    omega
  · left
    exact List.take_of_length_le (by simpa using hk)

/-- **C43** for a single part: all shards are assigned. -/
theorem C43_one_part_partial {shards : List Shard} {part : String} {r : ℚ} {parts : Dict (List String)}
    (hr : 0 < r) (hd : fl r = r) (hlen : shards.length < 2 ^ 53)
    (h : splitRatio shards [(part, r)] = some parts) : AssignsAll shards parts := by
  obtain ⟨-, h2⟩ := splitRatio_flat (by simpa using hr.le) (by simp) h
  unfold AssignsAll
  rw [h2]
  apply List.take_of_length_le
  rw [List.length_map]
  apply end_full _ hlen
  simp only [total, normalize, pySum, List.map_cons, List.map_nil, List.foldl_cons, List.foldl_nil, zero_add, hd]
  rw [div_self hr.ne', fl_one, fl_one]

/-- **C43** for two parts whose ratios have an exact sum (e.g. whole numbers): all shards are
assigned. -/
theorem C43_two_parts_partial {shards : List Shard} {p q : String} {a b : ℚ} {parts : Dict (List String)}
    (hpq : p ≠ q) (ha : 0 ≤ a) (hb : 0 ≤ b) (hda : fl a = a) (hsum : fl (a + b) = a + b)
    (hlen : shards.length < 2 ^ 53)
    (h : splitRatio shards [(p, a), (q, b)] = some parts) : AssignsAll shards parts := by
  obtain ⟨-, h2⟩ := splitRatio_flat
    (by intro r hr; simp only [List.mem_cons, List.not_mem_nil, or_false] at hr
        rcases hr with rfl | rfl <;> assumption)
    (by simpa using hpq) h
  have hT : a + b ≠ 0 := by
    intro h0
    have ha0 : a = 0 := by linarith
    have hb0 : b = 0 := by linarith
    subst ha0; subst hb0
    simp [splitRatio, pySum, fl_zero] at h
  have hTp : 0 < a + b := lt_of_le_of_ne (by linarith) (Ne.symm hT)
  unfold AssignsAll
  rw [h2]
  apply List.take_of_length_le
  rw [List.length_map]
  apply end_full _ hlen
  simp only [total, normalize, pySum, List.map_cons, List.map_nil, List.foldl_cons, List.foldl_nil, zero_add, hda,
    hsum, fl_fl]
  have hs : a / (a + b) + b / (a + b) = 1 := by rw [← add_div, div_self hT]
  rcases le_or_gt (1 / 2) (a / (a + b)) with h1 | h1
  · exact two_fractions h1 (div_nonneg hb hTp.le) hs
  · rw [add_comm (fl (a / (a + b)))]
    exact two_fractions (by linarith) (div_nonneg ha hTp.le) (by linarith)

/-- Ten shards of five samples -/
def ten : List Shard :=
  ["a", "b", "c", "d", "e", "f", "g", "h", "i", "j"].map (fun n => ⟨n, 5⟩)

/-- A case that meets the hypotheses of the theorems above: 8 to 2. -/
example : splitRatio ten [("train", 8), ("val", 2)] =
    some [("train", ["a", "b", "c", "d", "e", "f", "g", "h"]), ("val", ["i", "j"])] := by decide +kernel

/-- ... with more parts: 5 to 2 to 1. -/
example : splitRatio ten [("train", 5), ("val", 2), ("test", 1)] =
    some [("train", ["a", "b", "c", "d", "e", "f"]), ("val", ["g", "h"]), ("test", ["i", "j"])] := by decide +kernel

/-- **C43 does not hold**: with the ratios 1 : 4 : 1 and ten shards the cumulated ratio is
0.9999999999999999, and the last shard is in no part. -/
theorem C43_violated : ∃ (shards : List Shard) (ratios : List (String × ℚ)) (parts : Dict (List String)),
    (∀ r ∈ ratios, 0 < r.2) ∧ (ratios.map Prod.fst).Nodup ∧ splitRatio shards ratios = some parts ∧
    ¬ AssignsAll shards parts ∧ parts.flatMap Prod.snd = ["a", "b", "c", "d", "e", "f", "g", "h", "i"] ∧
    shards.length = 10 := by
  refine ⟨ten, [("train", 1), ("val", 4), ("test", 1)],
    [("train", ["a"]), ("val", ["b", "c", "d", "e", "f", "g", "h"]), ("test", ["i"])], ?_, ?_, ?_, ?_, ?_, ?_⟩
  · intro r hr
    simp only [List.mem_cons, List.not_mem_nil, or_false] at hr
    rcases hr with rfl | rfl | rfl <;> norm_num
  · decide
  · decide +kernel
  · unfold AssignsAll; decide +kernel
  · decide +kernel
  · decide +kernel

/-- A part name given twice: the shards of the first one are lost. -/
theorem C43_violated_names : ∃ (shards : List Shard) (ratios : List (String × ℚ)) (parts : Dict (List String)),
    (∀ r ∈ ratios, 0 < r.2) ∧ splitRatio shards ratios = some parts ∧
    parts.flatMap Prod.snd = ["f", "g", "h", "i", "j"] ∧ shards.length = 10 := by
  refine ⟨ten, [("train", 1), ("train", 1)], [("train", ["f", "g", "h", "i", "j"])], ?_, ?_, ?_, ?_⟩
  · intro r hr
    simp only [List.mem_cons, List.not_mem_nil, or_false] at hr
    rcases hr with rfl | rfl <;> norm_num
  · decide +kernel
  · decide +kernel
  · decide +kernel

/-! ## C59 -/

theorem shardCounts_get (shards : List Shard) (d : Dict ℕ) (s : Shard)
    (hn : (shards.map Shard.name).Nodup) (hs : s ∈ shards) :
    (shards.foldl (fun d s => d.set s.name s.count) d).get s.name = some s.count := by
  induction shards generalizing d with
  | nil => cases hs
  | cons x l ih =>
    simp only [List.foldl_cons]
    simp only [List.map_cons, List.nodup_cons] at hn
    rcases List.mem_cons.1 hs with rfl | hs'
    · have hg : ∀ (l : List Shard) (d : Dict ℕ), s.name ∉ l.map Shard.name →
          (l.foldl (fun d s => d.set s.name s.count) d).get s.name = d.get s.name := by
        intro l
        induction l with
        | nil => intro d _; rfl
        | cons y l ih' =>
          intro d hy
          simp only [List.map_cons, List.mem_cons, not_or] at hy
          rw [List.foldl_cons, ih' _ hy.2, Dict.get_set, if_neg (Ne.symm hy.1)]
      rw [hg l _ hn.1, Dict.get_set, if_pos rfl]
    · exact ih _ hn.2 hs'

theorem allSome_map {α β : Type} (f : α → Option β) (g : α → β) (l : List α) (h : ∀ a ∈ l, f a = some (g a)) :
    allSome (l.map f) = some (l.map g) := by
  induction l with
  | nil => rfl
  | cons a l ih =>
    simp only [List.map_cons, h a (by simp), allSome, ih (fun b hb => h b (by simp [hb])), Option.map_some]

/-- **C59**: every part written by the preparation and containing a shard that is not excluded can be
loaded: exactly the shards listed for the part and not excluded, in order, each with the number of
samples counted. `assigned` is the list of the shards assigned to the part. -/
theorem C59_loads {expand : String → List String} {shards assigned : List Shard} {parts : Dict (List String)}
    {exclude : List String} {part : String} (hn : (shards.map Shard.name).Nodup)
    (hx : ∀ s ∈ shards, expand s.name = [s.name])
    (hsub : ∀ s ∈ assigned, s ∈ shards)
    (hp : parts.get part = some (assigned.map Shard.name))
    (hne : ∃ s ∈ assigned, s.name ∉ exclude.flatMap expand) :
    fromConfig expand (shardCounts shards) parts exclude part =
      .shards (assigned.filter (fun s => s.name ∉ exclude.flatMap expand))
        ((exclude.flatMap expand).filter (fun e => '/' ∈ e.toList)) := by
  have h1 : ((assigned.map Shard.name).flatMap expand) = assigned.map Shard.name := by
    clear hp hne
    induction assigned with
    | nil => rfl
    | cons s l ih =>
      rw [List.map_cons, List.flatMap_cons, hx s (hsub s (by simp)), ih (fun s hs => hsub s (by simp [hs]))]
      rfl
  have h2 : (assigned.map Shard.name).filter (fun n => n ∉ exclude.flatMap expand)
      = (assigned.filter (fun s => s.name ∉ exclude.flatMap expand)).map Shard.name := by
    rw [List.filter_map]; rfl
  unfold fromConfig
  rw [hp]
  simp only [h1, h2, List.length_map, List.map_map]
  rw [if_neg]
  · rw [allSome_map _ id]
    · simp
    · intro s hs
      have hs' := hsub s (List.mem_filter.1 hs).1
      simp [Function.comp, shardCounts, shardCounts_get shards [] s hn hs']
  · obtain ⟨s, hs, hs'⟩ := hne
    intro h0
    have := List.length_eq_zero_iff.1 h0
    have hm : s ∈ assigned.filter (fun s => s.name ∉ exclude.flatMap expand) := by
      simp only [List.mem_filter, decide_eq_true_eq]
      exact ⟨hs, hs'⟩
    rw [this] at hm
    cases hm

/-- A part with no shard left (the preparation writes such parts for small ratios) cannot be loaded. -/
theorem C59_empty {expand : String → List String} {counts : Dict ℕ} {parts : Dict (List String)}
    {exclude : List String} {part : String} {names : List String}
    (hp : parts.get part = some names) (he : ∀ n ∈ names.flatMap expand, n ∈ exclude.flatMap expand) :
    fromConfig expand counts parts exclude part = .empty := by
  unfold fromConfig
  rw [hp]
  simp only
  rw [if_pos]
  rw [List.length_eq_zero_iff, List.filter_eq_nil_iff]
  intro n hn
  simpa using he n hn

/-- The written parts are consecutive pieces of the shards, so `C59_loads` applies to each of them. -/
theorem splitLoop_assigned (shards : List Shard) (qs : List (String × ℚ)) (t : ℚ) (off : ℕ) (d : Dict (List String))
    (hd : ∀ p names, d.get p = some names → ∃ assigned : List Shard, names = assigned.map Shard.name ∧ ∀ s ∈ assigned, s ∈ shards)
    (p : String) (names : List String) (h : (splitLoop shards qs t off d).get p = some names) :
    ∃ assigned : List Shard, names = assigned.map Shard.name ∧ ∀ s ∈ assigned, s ∈ shards := by
  induction qs generalizing t off d with
  | nil => exact hd p names h
  | cons q qs ih =>
    obtain ⟨part, q⟩ := q
    simp only [splitLoop] at h
    refine ih _ _ _ ?_ h
    intro p' names' h'
    rw [Dict.get_set] at h'
    split at h'
    · injection h' with h'
      refine ⟨_, h'.symm, ?_⟩
      intro s hs
      exact List.mem_of_mem_take (List.mem_of_mem_drop hs)
    · exact hd _ _ h'

/-- Loading from parts that list shards which were found. -/
theorem prepared_core {expand : String → List String} {found shards : List Shard}
    {parts : Dict (List String)} {exclude : List String} {part : String}
    (hsh : shards.Perm (keep found)) (hn : (shards.map Shard.name).Nodup)
    (hx : ∀ s ∈ shards, expand s.name = [s.name])
    (hex : ∀ names, parts.get part = some names →
      ∃ assigned : List Shard, names = assigned.map Shard.name ∧ ∀ s ∈ assigned, s ∈ shards) :
    fromConfig expand (shardCounts (keep found)) parts exclude part ≠ .keyError ∧
    ∀ l e, fromConfig expand (shardCounts (keep found)) parts exclude part = .shards l e →
      (∃ names, parts.get part = some names ∧
        l.map Shard.name = names.filter (fun n => n ∉ exclude.flatMap expand)) ∧
      ∀ s ∈ l, s ∈ found ∧ 0 < s.count := by
  cases hp : parts.get part with
  | none =>
    have : fromConfig expand (shardCounts (keep found)) parts exclude part = .invalidPart := by
      unfold fromConfig; rw [hp]
    rw [this]
    exact ⟨by simp, by intro l e h'; cases h'⟩
  | some names =>
    obtain ⟨assigned, rfl, hsub⟩ := hex names hp
    by_cases hne : ∃ s ∈ assigned, s.name ∉ exclude.flatMap expand
    · have := C59_loads (expand := expand) (shards := keep found) (exclude := exclude)
        ((hsh.map Shard.name).nodup_iff.1 hn) (fun s hs => hx s (hsh.mem_iff.2 hs))
        (fun s hs => hsh.mem_iff.1 (hsub s hs)) hp hne
      rw [this]
      refine ⟨by simp, ?_⟩
      intro l e h'
      injection h' with h1 h2
      subst h1
      refine ⟨⟨_, rfl, by rw [List.filter_map]; rfl⟩, ?_⟩
      intro s hs
      have := List.mem_filter.1 (hsh.mem_iff.1 (hsub s (List.mem_filter.1 hs).1))
      refine ⟨this.1, ?_⟩
      have := this.2
      simp only [ne_eq, decide_not, Bool.not_eq_true', decide_eq_false_iff_not] at this
      omega
    · have : fromConfig expand (shardCounts (keep found)) parts exclude part = .empty := by
        apply C59_empty hp
        intro n hn'
        obtain ⟨m, hm, hn''⟩ := List.mem_flatMap.1 hn'
        obtain ⟨s, hs, rfl⟩ := List.mem_map.1 hm
        rw [hx s (hsub s hs), List.mem_singleton] at hn''
        subst hn''
        by_contra hc
        exact hne ⟨s, hs, hc⟩
      rw [this]
      exact ⟨by simp, by intro l e h'; cases h'⟩

/-- **C59**, both halves together: after preparing shards with distinct names without braces, loading
any part never fails because of a missing count, and if it succeeds gives exactly the shards listed for
the part and not excluded, in order; each of them was found, with this number of samples. -/
theorem C59_prepared {expand : String → List String} {found shards : List Shard} {ratios : List (String × ℚ)}
    {parts : Dict (List String)} {exclude : List String} {part : String}
    (hsh : shards.Perm (keep found)) (hn : (shards.map Shard.name).Nodup)
    (hx : ∀ s ∈ shards, expand s.name = [s.name])
    (h : splitRatio shards ratios = some parts) :
    fromConfig expand (shardCounts (keep found)) parts exclude part ≠ .keyError ∧
    ∀ l e, fromConfig expand (shardCounts (keep found)) parts exclude part = .shards l e →
      (∃ names, parts.get part = some names ∧
        l.map Shard.name = names.filter (fun n => n ∉ exclude.flatMap expand)) ∧
      ∀ s ∈ l, s ∈ found ∧ 0 < s.count := by
  refine prepared_core hsh hn hx ?_
  intro names hp
  unfold splitRatio at h
  simp only at h
  split at h
  · cases h
  · injection h with h
    subst h
    exact splitLoop_assigned shards _ _ _ [] (by intro p' names' h'; cases h') part names hp

/-! ## Split parts given by patterns -/

theorem foldl_set_new {α β : Type} (f : β → String × α) (l : List β) (d : Dict α)
    (hn : (d.map Prod.fst ++ l.map (fun b => (f b).1)).Nodup) :
    l.foldl (fun d b => d.set (f b).1 (f b).2) d = d ++ l.map f := by
  induction l generalizing d with
  | nil => simp
  | cons b l ih =>
    have h1 : (f b).1 ∉ d.map Prod.fst := by
      rw [List.map_cons, List.nodup_append] at hn
      intro hc
      exact hn.2.2 _ hc _ (by simp) rfl
    rw [List.foldl_cons, Dict.set_new _ _ _ h1, ih]
    · simp
    · rw [List.map_append]
      simpa [List.append_assoc] using hn

/-- **C43 for split patterns** (`--split-parts`): each part (the names being distinct) gets exactly the shards matching its pattern, in the order of
the shards. -/
theorem C43_patterns_partial {shards : List Shard} {ps : List (String × (String → Bool))} (hn : (ps.map Prod.fst).Nodup) :
    splitPatterns shards ps = ps.map (fun p => (p.1, (shards.map Shard.name).filter p.2)) := by
  have := foldl_set_new (fun p : String × (String → Bool) => (p.1, (shards.map Shard.name).filter p.2)) ps [] (by simpa using hn)
  simpa [splitPatterns] using this

theorem count_patterns (names : List String) (ps : List (String × (String → Bool))) (a : String) :
    (ps.flatMap fun p => names.filter p.2).count a = (ps.countP fun p => p.2 a) * names.count a := by
  induction ps with
  | nil => simp
  | cons p ps ih =>
    rw [List.flatMap_cons, List.count_append, ih, List.countP_cons]
    cases h : p.2 a with
    | true => rw [List.count_filter h]; simp; ring
    | false =>
      have : (names.filter p.2).count a = 0 := by
        rw [List.count_eq_zero]
        intro hc
        rw [(List.mem_filter.1 hc).2] at h
        cases h
      rw [this]; simp

/-- **C43 for split patterns**: if each shard matches exactly one of the patterns, each shard is in exactly one part. (The patterns are the user's:
otherwise a shard is in as many parts as there are patterns matching it.) -/
theorem C43_patterns_split_partial {shards : List Shard} {ps : List (String × (String → Bool))} (hn : (ps.map Prod.fst).Nodup)
    (h1 : ∀ s ∈ shards, (ps.countP fun p => p.2 s.name) = 1) :
    ((splitPatterns shards ps).flatMap Prod.snd).Perm (shards.map Shard.name) := by
  rw [C43_patterns_partial hn, List.flatMap_map, List.perm_iff_count]
  intro a
  rw [count_patterns]
  by_cases ha : a ∈ shards.map Shard.name
  · obtain ⟨s, hs, rfl⟩ := List.mem_map.1 ha
    rw [h1 s hs, one_mul]
  · rw [List.count_eq_zero.2 ha]; simp

example : splitPatterns [⟨"train_0.tar", 1⟩, ⟨"val_0.tar", 2⟩, ⟨"train_1.tar", 3⟩]
    [("train", fun n => n.toList.head? = some 't'), ("val", fun n => n.toList.head? = some 'v')] =
    [("train", ["train_0.tar", "train_1.tar"]), ("val", ["val_0.tar"])] := by decide +kernel

/-- **C59 for split patterns**: as `C59_prepared`. -/
theorem C59_prepared_patterns {expand : String → List String} {found shards : List Shard} {ps : List (String × (String → Bool))}
    {exclude : List String} {part : String}
    (hsh : shards.Perm (keep found)) (hn : (shards.map Shard.name).Nodup) (hpn : (ps.map Prod.fst).Nodup)
    (hx : ∀ s ∈ shards, expand s.name = [s.name]) :
    fromConfig expand (shardCounts (keep found)) (splitPatterns shards ps) exclude part ≠ .keyError ∧
    ∀ l e, fromConfig expand (shardCounts (keep found)) (splitPatterns shards ps) exclude part = .shards l e →
      (∃ names, (splitPatterns shards ps).get part = some names ∧
        l.map Shard.name = names.filter (fun n => n ∉ exclude.flatMap expand)) ∧
      ∀ s ∈ l, s ∈ found ∧ 0 < s.count := by
  refine prepared_core hsh hn hx ?_
  intro names hp
  rw [C43_patterns_partial hpn] at hp
  have hmem : ∀ (l : List (String × (String → Bool))), Dict.get (l.map fun p => (p.1, (shards.map Shard.name).filter p.2)) part = some names →
      ∃ q : String → Bool, names = (shards.map Shard.name).filter q := by
    intro l
    induction l with
    | nil => intro h; cases h
    | cons p l ih =>
      intro h
      simp only [List.map_cons, Dict.get] at h
      split at h
      · injection h with h; exact ⟨_, h.symm⟩
      · exact ih h
  obtain ⟨q, rfl⟩ := hmem ps hp
  refine ⟨shards.filter (fun s => q s.name), ?_, fun s hs => (List.mem_filter.1 hs).1⟩
  rw [List.filter_map]
  rfl

/-- A case that meets the hypotheses of `C59_prepared`: twelve tar files found, two of them broken or
without samples; one shard and one sample are excluded. -/
example : fromConfig (fun s => [s])
    (shardCounts (keep (⟨"x", 0⟩ :: ten ++ [⟨"y", 0⟩])))
    [("train", ["a", "b", "c", "d", "e", "f", "g", "h"]), ("val", ["i", "j"])] ["i", "a/3"] "val"
    = .shards [⟨"j", 5⟩] ["a/3"] := by decide +kernel

end Verif.Prep
