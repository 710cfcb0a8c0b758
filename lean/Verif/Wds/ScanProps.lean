import Verif.Wds.ScanModel
import Verif.Wds.ReaderProps

/-!
# C103: what `energon prepare` finds in the shards is what is in them
-/

namespace Verif.Wds

open Verif.Stream

variable {B : Type}

/-! ## The samples that are shown -/

/-- A sample as shown: the contents of the parts in `extract`, only the names of the others. -/
def shown (extract : List Name) (parts : List (Name × B)) : List (Name × Option B) :=
  parts.map fun p => (p.1, if p.1 ∈ extract then some p.2 else none)

theorem shown_dictSet (extract : List Name) (k : Name) (v : B) (d : List (Name × B)) :
    dictSet k (if k ∈ extract then some v else none) (shown extract d) = shown extract (dictSet k v d) := by
  induction d with
  | nil => rfl
  | cons p d ih =>
    obtain ⟨k', v'⟩ := p
    simp only [shown, List.map_cons, dictSet] at ih ⊢
    split
    · rfl
    · rw [List.map_cons, ih]

theorem dictSet_ne_nil (k : Name) (v : B) (d : List (Name × B)) : dictSet k v d ≠ [] := by
  cases d with
  | nil => simp [dictSet]
  | cons p d => obtain ⟨k', v'⟩ := p; simp only [dictSet]; split <;> simp

theorem partsOf_snoc (g : List (Entry B)) (e : Entry B) : partsOf (g ++ [e]) = dictSet e.ext e.data (partsOf g) := by
  simp [partsOf, List.foldl_append]

theorem shown_ne_nil (extract : List Name) (g : List (Entry B)) (e : Entry B) : shown extract (partsOf (g ++ [e])) ≠ [] := by
  rw [partsOf_snoc]
  intro h
  exact dictSet_ne_nil e.ext e.data (partsOf g) (by simpa [shown] using h)

theorem entries_none {m : Member B} {l : List (Member B)} (h : m.part = none) : entries (m :: l) = entries l := by
  simp [entries, h]

theorem entries_some {m : Member B} {l : List (Member B)} {b x : Name} (h : m.part = some (b, x)) : entries (m :: l) = ⟨b, x, m.data⟩ :: entries l := by
  simp [entries, h]

theorem groups_run (e : Entry B) (t l : List (Entry B)) (ht : ∀ f ∈ t, f.base = e.base) (hl : ∀ f, l.head? = some f → f.base ≠ e.base) :
    groups (e :: t ++ l) = (e :: t) :: groups l := by
  rw [List.cons_append, groups_cons]
  have h1 : (t ++ l).takeWhile (fun f => decide (f.base = e.base)) = t := by
    rw [List.takeWhile_append_of_pos (by intro f hf; simpa using ht f hf)]
    cases l with
    | nil => simp
    | cons f l => have := hl f rfl; simp [this]
  have h2 : (t ++ l).dropWhile (fun f => decide (f.base = e.base)) = l := by
    rw [List.dropWhile_append_of_pos (by intro f hf; simpa using ht f hf)]
    cases l with
    | nil => rfl
    | cons f l => have := hl f rfl; simp [this]
  rw [h1, h2]

theorem contentLoop_run (extract : List Name) (tar : List (Member B)) : ∀ (e : Entry B) (t : List (Entry B)), (∀ f ∈ t, f.base = e.base) →
    contentLoop extract (some e.base) (shown extract (partsOf (e :: t))) tar =
      (groups (e :: t ++ entries tar)).map fun g => shown extract (partsOf g) := by
  induction tar with
  | nil =>
    intro e t ht
    have hne : shown extract (partsOf (e :: t)) ≠ [] := by
      have := shown_ne_nil extract (e :: t).dropLast ((e :: t).getLast (by simp))
      rwa [List.dropLast_append_getLast] at this
    have := groups_run e t [] ht (by simp)
    rw [List.append_nil] at this
    simp only [contentLoop, if_neg hne, entries, List.filterMap_nil, List.append_nil, this]
    rfl
  | cons m l ih =>
    intro e t ht
    cases hp : m.part with
    | none => rw [entries_none hp, ← ih e t ht]; simp only [contentLoop, hp]
    | some bx =>
      obtain ⟨b, x⟩ := bx
      rw [entries_some hp]
      simp only [contentLoop, hp]
      by_cases hb : e.base = b
      · subst hb
        rw [if_neg (by simp), shown_dictSet, ← partsOf_snoc (e :: t) ⟨e.base, x, m.data⟩]
        have := ih e (t ++ [⟨e.base, x, m.data⟩]) (by
          intro f hf
          rcases List.mem_append.1 hf with hf | hf
          · exact ht f hf
          · rw [List.mem_singleton.1 hf])
        rw [List.cons_append] at *
        simpa using this
      · rw [if_pos (by simpa using hb)]
        have hne : shown extract (partsOf (e :: t)) ≠ [] := by
          have := shown_ne_nil extract (e :: t).dropLast ((e :: t).getLast (by simp))
          rwa [List.dropLast_append_getLast] at this
        rw [if_neg hne, groups_run e t _ ht (by intro f hf; simp only [List.head?_cons, Option.some.injEq] at hf; subst hf; exact fun h => hb h.symm)]
        have := ih ⟨b, x, m.data⟩ [] (by simp)
        simp only [List.map_cons, List.singleton_append]
        rw [show (⟨b, x, m.data⟩ :: entries l : List (Entry B)) = [⟨b, x, m.data⟩] ++ entries l from rfl, ← this]
        rfl

/-- **C103, the samples that are shown** are the samples of the shard, in order, each with exactly the parts it has when it is read (`partsOf`: C39, C55). -/
theorem C103_shown (extract : List Name) (tar : List (Member B)) :
    iterContent extract tar = (groups (entries tar)).map fun g => shown extract (partsOf g) := by
  unfold iterContent
  induction tar with
  | nil => rfl
  | cons m l ih =>
    cases hp : m.part with
    | none => rw [entries_none hp, ← ih]; simp only [contentLoop, hp]
    | some bx =>
      obtain ⟨b, x⟩ := bx
      rw [entries_some hp]
      simp only [contentLoop, hp]
      rw [if_pos (by simp)]
      have := contentLoop_run extract l ⟨b, x, m.data⟩ [] (by simp)
      rw [show (⟨b, x, m.data⟩ :: entries l : List (Entry B)) = [⟨b, x, m.data⟩] ++ entries l from rfl, ← this]
      rfl

/-- ... so that as many samples could be shown as were counted. -/
theorem C103_shown_count (extract : List Name) (tar : List (Member B)) : (iterContent extract tar).length = tarCount tar := by
  rw [C103_shown, List.length_map, C39_count]

/-! ## The kinds of parts -/

theorem mem_setAdd (x y : Name) (s : List Name) : y ∈ setAdd x s ↔ y = x ∨ y ∈ s := by
  unfold setAdd
  split
  · constructor
    · exact Or.inr
    · rintro (rfl | h) <;> assumption
  · simp only [List.mem_append, List.mem_singleton]; exact Or.comm

theorem setAdd_length (x : Name) (s : List Name) : (setAdd x s).length ≤ s.length + 1 ∧ s.length ≤ (setAdd x s).length := by
  unfold setAdd
  split <;> simp

theorem partsLoop_spec (k : Nat) (tar : List (Member B)) : ∀ parts : List Name,
    (∀ x ∈ partsLoop k parts tar, x ∈ parts ∨ ∃ e ∈ entries tar, e.ext = x) ∧ parts.length ≤ (partsLoop k parts tar).length ∧
    (∀ x ∈ parts, x ∈ partsLoop k parts tar) ∧
    (parts.length ≤ k → (partsLoop k parts tar).length ≤ k) ∧
    ((partsLoop k parts tar).length < k → ∀ e ∈ entries tar, e.ext ∈ partsLoop k parts tar) := by
  induction tar with
  | nil => intro parts; exact ⟨fun x h => Or.inl h, Nat.le_refl _, fun x h => h, fun h => h, fun _ e he => by cases he⟩
  | cons m l ih =>
    intro parts
    cases hp : m.part with
    | none => rw [entries_none hp]; simp only [partsLoop, hp]; exact ih parts
    | some bx =>
      obtain ⟨b, x⟩ := bx
      rw [entries_some hp]
      simp only [partsLoop, hp]
      by_cases hk : parts.length < k
      · rw [if_pos hk]
        obtain ⟨h1, h2, h3, h4, h5⟩ := ih (setAdd x parts)
        have hl := setAdd_length x parts
        refine ⟨?_, by omega, fun y hy => h3 y ((mem_setAdd x y parts).2 (Or.inr hy)), fun _ => h4 (by omega), ?_⟩
        · intro y hy
          rcases h1 y hy with h | ⟨e, he, hx⟩
          · rcases (mem_setAdd x y parts).1 h with rfl | h
            · exact Or.inr ⟨⟨b, y, m.data⟩, by simp, rfl⟩
            · exact Or.inl h
          · exact Or.inr ⟨e, by simp [he], hx⟩
        · intro hlt e he
          rcases List.mem_cons.1 he with rfl | he
          · exact h3 x ((mem_setAdd x x parts).2 (Or.inl rfl))
          · exact h5 hlt e he
      · rw [if_neg hk]
        obtain ⟨h1, h2, h3, h4, h5⟩ := ih parts
        refine ⟨?_, h2, h3, h4, fun hlt => by omega⟩
        intro y hy
        rcases h1 y hy with h | ⟨e, he, hx⟩
        · exact Or.inl h
        · exact Or.inr ⟨e, by simp [he], hx⟩

/-- The kinds of parts in a shard -/
def extsOf (tar : List (Member B)) (x : Name) : Prop := ∃ e ∈ entries tar, e.ext = x

theorem foldl_setAdd (l f : List Name) (y : Name) : y ∈ l.foldl (fun f x => setAdd x f) f ↔ y ∈ f ∨ y ∈ l := by
  induction l generalizing f with
  | nil => simp
  | cons x l ih =>
    rw [List.foldl_cons, ih, mem_setAdd, List.mem_cons]
    constructor
    · rintro ((h | h) | h)
      · exact Or.inr (Or.inl h)
      · exact Or.inl h
      · exact Or.inr (Or.inr h)
    · rintro (h | h | h)
      · exact Or.inl (Or.inr h)
      · exact Or.inl (Or.inl h)
      · exact Or.inr h

theorem foldl_setAdd_length (l f : List Name) : f.length ≤ (l.foldl (fun f x => setAdd x f) f).length := by
  induction l generalizing f with
  | nil => simp
  | cons x l ih => rw [List.foldl_cons]; exact Nat.le_trans (setAdd_length x f).2 (ih _)

theorem length_le_foldl (f l : List Name) (hl : l.Nodup) : l.length ≤ (l.foldl (fun f x => setAdd x f) f).length := by
  have hsub : ∀ x ∈ l, x ∈ l.foldl (fun f x => setAdd x f) f := fun x hx => (foldl_setAdd l f x).2 (Or.inr hx)
  exact (List.subperm_of_subset hl hsub).length_le

theorem setAdd_nodup (x : Name) (s : List Name) (h : s.Nodup) : (setAdd x s).Nodup := by
  unfold setAdd
  split
  · exact h
  · rename_i hx
    rw [List.nodup_append]
    exact ⟨h, by simp, by intro a ha b hb; rw [List.mem_singleton.1 hb]; exact fun he => hx (he ▸ ha)⟩

theorem partsLoop_nodup (k : Nat) (tar : List (Member B)) : ∀ parts : List Name, parts.Nodup → (partsLoop k parts tar).Nodup := by
  induction tar with
  | nil => intro parts h; exact h
  | cons m l ih =>
    intro parts h
    cases hp : m.part with
    | none => simp only [partsLoop, hp]; exact ih parts h
    | some bx =>
      simp only [partsLoop, hp]
      split
      · exact ih _ (setAdd_nodup _ _ h)
      · exact ih _ h

/-- What is listed and found so far, for the shards in order. -/
def collectFrom (r : List (String × Scanned) × List Name) (l : List (String × Scanned)) : List (String × Scanned) × List Name :=
  l.foldl (fun r s =>
      if s.2.count = 0 then r
      else (r.1 ++ [s], if r.2.length < 50 then s.2.parts.foldl (fun f x => setAdd x f) r.2 else r.2)) r

theorem collectFrom_spec (l : List (String × Scanned)) : ∀ r : List (String × Scanned) × List Name,
    (collectFrom r l).1 = r.1 ++ l.filter (fun s => decide (s.2.count ≠ 0)) ∧
    r.2.length ≤ (collectFrom r l).2.length ∧ (∀ x ∈ r.2, x ∈ (collectFrom r l).2) ∧
    (∀ x ∈ (collectFrom r l).2, x ∈ r.2 ∨ ∃ s ∈ l, s.2.count ≠ 0 ∧ x ∈ s.2.parts) ∧
    ((collectFrom r l).2.length < 50 → ∀ s ∈ l, s.2.count ≠ 0 → ∀ x ∈ s.2.parts, x ∈ (collectFrom r l).2) := by
  induction l with
  | nil => intro r; exact ⟨by simp [collectFrom], Nat.le_refl _, fun x h => h, fun x h => Or.inl h, fun _ s hs => by cases hs⟩
  | cons s l ih =>
    intro r
    have hstep : collectFrom r (s :: l) = collectFrom (if s.2.count = 0 then r
      else (r.1 ++ [s], if r.2.length < 50 then s.2.parts.foldl (fun f x => setAdd x f) r.2 else r.2)) l := rfl
    rw [hstep]
    by_cases h0 : s.2.count = 0
    · rw [if_pos h0]
      obtain ⟨h1, h2, h3, h4, h5⟩ := ih r
      refine ⟨by rw [h1]; simp [h0], h2, h3, ?_, ?_⟩
      · intro x hx
        rcases h4 x hx with h | ⟨s', hs', h⟩
        · exact Or.inl h
        · exact Or.inr ⟨s', by simp [hs'], h⟩
      · intro hlt s' hs' hc x hx
        rcases List.mem_cons.1 hs' with rfl | hs'
        · exact absurd h0 hc
        · exact h5 hlt s' hs' hc x hx
    · rw [if_neg h0]
      by_cases hk : r.2.length < 50
      · rw [if_pos hk]
        obtain ⟨h1, h2, h3, h4, h5⟩ := ih (r.1 ++ [s], s.2.parts.foldl (fun f x => setAdd x f) r.2)
        refine ⟨by rw [h1]; simp [h0], Nat.le_trans (foldl_setAdd_length _ _) h2, fun x hx => h3 x ((foldl_setAdd _ _ _).2 (Or.inl hx)), ?_, ?_⟩
        · intro x hx
          rcases h4 x hx with h | ⟨s', hs', h⟩
          · rcases (foldl_setAdd _ _ _).1 h with h | h
            · exact Or.inl h
            · exact Or.inr ⟨s, by simp, h0, h⟩
          · exact Or.inr ⟨s', by simp [hs'], h⟩
        · intro hlt s' hs' hc x hx
          rcases List.mem_cons.1 hs' with rfl | hs'
          · exact h3 x ((foldl_setAdd _ _ _).2 (Or.inr hx))
          · exact h5 hlt s' hs' hc x hx
      · rw [if_neg hk]
        obtain ⟨h1, h2, h3, h4, h5⟩ := ih (r.1 ++ [s], r.2)
        refine ⟨by rw [h1]; simp [h0], h2, h3, ?_, ?_⟩
        · intro x hx
          rcases h4 x hx with h | ⟨s', hs', h⟩
          · exact Or.inl h
          · exact Or.inr ⟨s', by simp [hs'], h⟩
        · intro hlt
          have h2 : r.2.length ≤ (collectFrom (r.1 ++ [s], r.2) l).2.length := h2
          omega

/-- **C103, the kinds of parts**: each kind of part that is reported occurs in a shard that could be read; and unless fifty or more are
reported, all the kinds of parts of the shards that could be read are. -/
theorem C103_parts (shards : List (String × Option ScanFail × List (Member B))) :
    (∀ x ∈ (scanAll shards).2, ∃ s ∈ shards, s.2.1 = none ∧ extsOf s.2.2 x) ∧
    ((scanAll shards).2.length < 50 → ∀ s ∈ shards, s.2.1 = none → ∀ x, extsOf s.2.2 x → x ∈ (scanAll shards).2) := by
  obtain ⟨-, -, -, h4, h5⟩ := collectFrom_spec (shards.map fun s => (s.1, scanTar 50 s.2.1 s.2.2)) ([], [])
  have e : collectFrom ([], []) (shards.map fun s => (s.1, scanTar 50 s.2.1 s.2.2)) = scanAll shards := rfl
  rw [e] at h4 h5
  constructor
  · intro x hx
    rcases h4 x hx with h | ⟨s', hs', -, hp⟩
    · cases h
    · obtain ⟨s, hs, rfl⟩ := List.mem_map.1 hs'
      obtain ⟨n, fail, tar⟩ := s
      dsimp only at hp
      cases fail with
      | none =>
        rcases (partsLoop_spec 50 tar []).1 x hp with h | h
        · cases h
        · exact ⟨_, hs, rfl, h⟩
      | some f => cases f <;> cases hp
  · intro hlt s hs hn x hx
    obtain ⟨n, fail, tar⟩ := s
    dsimp only at hn hx
    subst hn
    obtain ⟨e', he', rfl⟩ := hx
    have hcount : tarCount tar ≠ 0 := by
      rw [C39_count]
      intro h0
      have := groups_flatten (entries tar)
      rw [List.length_eq_zero_iff.1 h0] at this
      rw [← this] at he'
      cases he'
    have h5 := h5 hlt (n, scanTar 50 none tar) (List.mem_map.2 ⟨_, hs, rfl⟩) hcount
    have hin : ∀ y ∈ partsLoop 50 [] tar, y ∈ (scanAll shards).2 := h5
    refine hin _ ((partsLoop_spec 50 tar []).2.2.2.2 ?_ e' he')
    have hnd := partsLoop_nodup 50 tar [] List.nodup_nil
    have := (List.subperm_of_subset hnd hin).length_le
    omega

/-! ## The shards that are listed -/

/-- **C103 in full for the shards**: exactly the shards that were processed without an exception and have a sample are listed, with their number of
samples; each of them has an index. -/
def C103_statement : Prop :=
  ∀ (shards : List (String × Option ScanFail × List (Member Unit))),
    (scanAll shards).1.map (fun s => (s.1, s.2.count)) =
      (shards.filter fun s => decide (s.2.1 = none ∧ groups (entries s.2.2) ≠ [])).map fun s => (s.1, (groups (entries s.2.2)).length)

/-- **C103 for the shards** if no exception occurs at the very end, when the index is completed.
Missing: these exceptions (`C103_violated`). -/
theorem C103_listed_partial (shards : List (String × Option ScanFail × List (Member B))) (h : ∀ s ∈ shards, s.2.1 ≠ some .closing) :
    (scanAll shards).1.map (fun s => (s.1, s.2.count)) =
      (shards.filter fun s => decide (s.2.1 = none ∧ groups (entries s.2.2) ≠ [])).map (fun s => (s.1, (groups (entries s.2.2)).length)) ∧
    ∀ s ∈ (scanAll shards).1, s.2.indexed = true := by
  have e : collectFrom ([], []) (shards.map fun s => (s.1, scanTar 50 s.2.1 s.2.2)) = scanAll shards := rfl
  have h1 := (collectFrom_spec (shards.map fun s => (s.1, scanTar 50 s.2.1 s.2.2)) ([], [])).1
  rw [e, List.nil_append] at h1
  rw [h1]
  clear h1 e
  constructor
  · induction shards with
    | nil => rfl
    | cons s l ih =>
      have ih := ih fun s hs => h s (List.mem_cons_of_mem _ hs)
      obtain ⟨n, fail, tar⟩ := s
      have hf := h (n, fail, tar) (by simp)
      dsimp only at hf
      rw [List.map_cons, List.filter_cons, List.filter_cons]
      cases fail with
      | some f =>
        cases f with
        | closing => exact absurd rfl hf
        | reading => simpa [scanTar] using ih
      | none =>
        have e1 : (scanTar 50 none tar).count = (groups (entries tar)).length := C39_count tar
        by_cases hg : groups (entries tar) = []
        · rw [hg] at e1
          simpa [hg, e1] using ih
        · have : (groups (entries tar)).length ≠ 0 := by simpa using hg
          simpa [hg, e1] using ih
  · intro s hs
    obtain ⟨hs, hc⟩ := List.mem_filter.1 hs
    obtain ⟨⟨n, fail, tar⟩, hm, rfl⟩ := List.mem_map.1 hs
    have hf := h _ hm
    dsimp only at hf hc ⊢
    cases fail with
    | none => rfl
    | some f =>
      cases f with
      | closing => exact absurd rfl hf
      | reading => simp [scanTar] at hc

/-- Files for the examples -/
def exFile (n : String) : Member Unit := ⟨1024, true, n.toList, ()⟩

/-- **C103 is false of the code** if the index of a shard cannot be completed (for example a full disk): "Skipping it" is logged, but the number of
samples was set before, and the shard is listed without having an index. -/
theorem C103_violated : ¬ C103_statement ∧
    ∃ s ∈ (scanAll [("a.tar", some .closing, [exFile "1.jpg"])]).1, s.1 = "a.tar" ∧ s.2.indexed = false := by
  constructor
  · intro h
    have := h [("a.tar", some .closing, [exFile "1.jpg"])]
    revert this
    decide +kernel
  · exact ⟨("a.tar", ⟨1, [], false⟩), by decide +kernel, rfl, rfl⟩

/-- A case for the theorems: two good shards, one broken, one without samples. -/
example : scanAll [("a.tar", none, [exFile "1.jpg", exFile "1.txt", exFile "2.jpg"]), ("b.tar", some .reading, [exFile "1.png"]),
    ("c.tar", none, [exFile "__meta__/1.json"]), ("d.tar", none, [exFile "1.json"])] =
    ([("a.tar", ⟨2, ["jpg".toList, "txt".toList], true⟩), ("d.tar", ⟨1, ["json".toList], true⟩)], ["jpg".toList, "txt".toList, "json".toList]) := by
  decide +kernel

example : iterContent ["txt".toList] [exFile "1.jpg", exFile "1.txt", exFile "2.jpg"] =
    [[("jpg".toList, none), ("txt".toList, some ())], [("jpg".toList, none)]] := by decide +kernel

end Verif.Wds
