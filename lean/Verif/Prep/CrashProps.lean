import Verif.Prep.Crash

/-! # C113: an interrupted `energon prepare` is noticed: the claims -/

namespace Verif.Prep

variable {X : Texts} {expand : String → List String} {counts counts₀ : Dict ℕ} {parts parts₀ : Dict (List String)}

/-- Names without braces and backslashes are not changed by `braceexpand`. -/
def KeepsPlain (expand : String → List String) : Prop := ∀ n : String, n.toList.all plainChar = true → expand n = [n]

theorem ListsShards.congr {c c' : Dict ℕ} {p p' : Dict (List String)} {part : String} {l : List Shard} (hc : ∀ n, c.get n = c'.get n)
    (hp : p.get part = p'.get part) : ListsShards c p part l ↔ ListsShards c' p' part l := by
  unfold ListsShards
  rw [hp]
  simp only [hc]

theorem Proper.names (h : Proper X counts parts) {part : String} {names : List String} (hp : (sortKeys parts).get part = some names) :
    ∀ n ∈ names, n.toList.all plainChar = true := fun n hn =>
  (h.listed _ ((sortKeys_perm parts).mem_iff.1 (Dict.get_mem hp)) n hn).1

/-- Files that are complete -/
theorem load_whole (hx : KeepsPlain expand) (h : Proper X counts parts) {d : Folder} (hi : d .info = some (render (infoLines' counts)))
    (hs : d .split = some (render (splitLines parts))) {part : String} {l : List Shard} :
    loadPart X expand d part = some l ↔ (∃ t, d .dataset = some t ∧ X.usable t = true) ∧ ListsShards counts parts part l := by
  rw [loadPart_iff, ← ListsShards.congr (part := part) (l := l) (fun n => Dict.get_perm (sortKeys_perm counts) h.keys n)
    (Dict.get_perm (sortKeys_perm parts) h.partKeys part), ← fromConfig_iff hx (fun names hp => h.names hp)]
  constructor
  · rintro ⟨i, ds, s, counts', parts', e1, e2, e3, h4, h5, h6, h7⟩
    rw [hi] at e1; rw [hs] at e3
    cases e1; cases e3
    rw [readInfo_whole h.name] at h5
    rw [readSplit_whole h.part h.listed] at h6
    cases h5; cases h6
    exact ⟨⟨ds, e2, h4⟩, h7⟩
  · rintro ⟨⟨t, e2, h4⟩, h7⟩
    exact ⟨_, t, _, _, _, hi, e2, hs, h4, readInfo_whole h.name, readSplit_whole h.part h.listed, h7⟩

/-- The optional last writes -/
def lastWrites (loader dataset : Option (List Char)) : List (File × List Char) :=
  (loader.map fun t => (File.loader, t)).toList ++ (dataset.map fun t => (File.dataset, t)).toList

theorem prepareWrites_eq (loader dataset : Option (List Char)) : prepareWrites counts parts loader dataset =
    (.info, render (infoLines' counts)) :: (.split, render (splitLines parts)) :: lastWrites loader dataset := rfl

theorem lastWrites_files {loader dataset : Option (List Char)} : ∀ w ∈ lastWrites loader dataset, w.1 = .loader ∨ w.1 = .dataset := by
  intro w hw
  unfold lastWrites at hw
  rw [List.mem_append] at hw
  rcases hw with hw | hw
  · rw [Option.mem_toList, Option.map_eq_some_iff] at hw
    obtain ⟨t, -, rfl⟩ := hw
    exact Or.inl rfl
  · rw [Option.mem_toList, Option.map_eq_some_iff] at hw
    obtain ⟨t, -, rfl⟩ := hw
    exact Or.inr rfl

theorem put_other {d : Folder} {f g : File} {t : List Char} (h : g ≠ f) : d.put f t g = d g := if_neg h
theorem put_same {d : Folder} {f : File} {t : List Char} : d.put f t f = some t := if_pos rfl

theorem died_other {d d' : Folder} {ws : List (File × List Char)} (h : Died d ws d') {g : File} (hg : ∀ w ∈ ws, w.1 ≠ g) : d' g = d g := by
  induction h with
  | before => rfl
  | during _ => exact put_other fun e => hg _ (List.mem_cons_self ..) e.symm
  | later _ ih => rw [ih fun w h => hg w (List.mem_cons_of_mem _ h), put_other fun e => hg _ (List.mem_cons_self ..) e.symm]

theorem lastWrites_keep {d d' : Folder} {loader dataset : Option (List Char)} (h : Died d (lastWrites loader dataset) d') {g : File} (h1 : g ≠ .loader)
    (h2 : g ≠ .dataset) : d' g = d g := by
  refine died_other h ?_
  intro w hw e
  rcases lastWrites_files w hw with h | h
  · exact h1 (e.symm.trans h)
  · exact h2 (e.symm.trans h)

theorem died_done {d : Folder} {ws : List (File × List Char)} : Died d ws (d.done ws) := by
  induction ws generalizing d with
  | nil => exact .before
  | cons w ws ih => exact .later ih

/-- **C113, a preparation that comes to its end**: whatever the folder held before, also what a killed preparation left: then a part can be loaded exactly if
shards are listed for it, and the loaded shards are these, with the numbers of samples counted. -/
theorem C113_complete (hx : KeepsPlain expand) (h : Proper X counts parts) (d : Folder) (loader dataset : Option (List Char))
    (hu : ∃ t, (d.done (prepareWrites counts parts loader dataset)) .dataset = some t ∧ X.usable t = true) (part : String) (l : List Shard) :
    loadPart X expand (d.done (prepareWrites counts parts loader dataset)) part = some l ↔ ListsShards counts parts part l := by
  have hd : Died ((d.put .info (render (infoLines' counts))).put .split (render (splitLines parts))) (lastWrites loader dataset)
      (d.done (prepareWrites counts parts loader dataset)) := by
    rw [prepareWrites_eq]
    exact died_done
  rw [load_whole hx h (d := d.done (prepareWrites counts parts loader dataset))]
  · exact ⟨fun h => h.2, fun h => ⟨hu, h⟩⟩
  · rw [lastWrites_keep hd (by decide) (by decide), put_other (by decide), put_same]
  · rw [lastWrites_keep hd (by decide) (by decide), put_same]

/-- **C113, the first preparation**: as long as there is no `dataset.yaml`, a dataset whose preparation was killed at any point cannot be loaded, or it is loaded
as if the preparation had come to its end. -/
theorem C113_first (hx : KeepsPlain expand) (h : Proper X counts parts) (d d' : Folder) (loader dataset : Option (List Char)) (hd : d .dataset = none)
    (hk : Died d (prepareWrites counts parts loader dataset) d') (part : String) (l : List Shard) (hl : loadPart X expand d' part = some l) :
    ListsShards counts parts part l := by
  obtain ⟨i, ds, s, counts', parts', e1, e2, e3, h4, h5, h6, h7⟩ := loadPart_iff.1 hl
  rw [prepareWrites_eq] at hk
  cases hk with
  | before => rw [hd] at e2; cases e2
  | during _ => rw [put_other (by decide), hd] at e2; cases e2
  | later hk =>
    cases hk with
    | before => rw [put_other (by decide), hd] at e2; cases e2
    | during _ => rw [put_other (by decide), put_other (by decide), hd] at e2; cases e2
    | later hk =>
      refine ((load_whole hx h ?_ ?_).1 hl).2
      · rw [lastWrites_keep hk (by decide) (by decide), put_other (by decide), put_same]
      · rw [lastWrites_keep hk (by decide) (by decide), put_same]

/-- Until `dataset.yaml` is begun nothing can be loaded. -/
theorem C113_first_refused (d d' : Folder) (loader : Option (List Char)) (hd : d .dataset = none) (hk : Died d (prepareWrites counts parts loader none) d')
    (part : String) : loadPart X expand d' part = none := by
  have : d' .dataset = none := by
    rw [died_other hk, hd]
    intro w hw
    rw [prepareWrites_eq] at hw
    rcases List.mem_cons.1 hw with rfl | hw
    · exact fun e => by cases e
    · rcases List.mem_cons.1 hw with rfl | hw
      · exact fun e => by cases e
      · intro e
        unfold lastWrites at hw
        simp only [Option.map_none, Option.toList_none, List.append_nil] at hw
        rw [Option.mem_toList, Option.map_eq_some_iff] at hw
        obtain ⟨t, -, rfl⟩ := hw
        cases e
  cases hl : loadPart X expand d' part with
  | none => rfl
  | some l =>
    obtain ⟨i, ds, s, counts', parts', e1, e2, -⟩ := loadPart_iff.1 hl
    rw [this] at e2
    cases e2

/-- **C113** in full: also for a dataset that was prepared before (`counts₀`, `parts₀`), at every point where the preparation is killed a part cannot be loaded, or
it is loaded as before, or as the new preparation makes it. -/
def C113_statement : Prop :=
  ∀ (X : Texts) (expand : String → List String) (counts₀ counts : Dict ℕ) (parts₀ parts : Dict (List String)) (d d' : Folder)
    (loader dataset : Option (List Char)) (part : String) (l : List Shard), KeepsPlain expand → Proper X counts₀ parts₀ → Proper X counts parts →
    d .info = some (render (infoLines' counts₀)) → d .split = some (render (splitLines parts₀)) →
    Died d (prepareWrites counts parts loader dataset) d' → loadPart X expand d' part = some l →
    ListsShards counts₀ parts₀ part l ∨ ListsShards counts parts part l

/-- What may be loaded while `.info.yaml` is written: the shards as listed before, with the new numbers of samples, of which one may have lost its last digits -/
def NewCounts (counts : Dict ℕ) (parts₀ : Dict (List String)) (part : String) (l : List Shard) : Prop :=
  parts₀.get part = some (l.map Shard.name) ∧
  ∃ last : String, ∀ s ∈ l, ∃ c, counts.get s.name = some c ∧ (s.count = c ∨ s.name = last ∧ ∃ k, s.count = c / 10 ^ k ∧ 10 ^ k ≤ c)

/-- What may be loaded while `split.yaml` is written: the first of the shards listed, with the new numbers of samples -/
def FirstShards (counts : Dict ℕ) (parts : Dict (List String)) (part : String) (l : List Shard) : Prop :=
  ∃ names, parts.get part = some names ∧ CutNames names (l.map Shard.name) ∧ ∀ s ∈ l, counts.get s.name = some s.count

theorem CutCounts.get {d r : Dict ℕ} (h : CutCounts d r) (hn : (d.map Prod.fst).Nodup) :
    ∃ last : String, ∀ n c', r.get n = some c' → ∃ c, d.get n = some c ∧ (c' = c ∨ n = last ∧ ∃ k, c' = c / 10 ^ k ∧ 10 ^ k ≤ c) := by
  induction h with
  | nil => exact ⟨"", fun n c' h => by cases h⟩
  | @cut n c c' ps k hk hk' =>
    refine ⟨n, ?_⟩
    intro m v hm
    rw [Dict.get] at hm
    split at hm
    · rename_i e
      cases hm
      subst e
      refine ⟨c, by rw [Dict.get, if_pos rfl], ?_⟩
      rcases hk' with rfl | hk'
      · left; rw [hk]; simp
      · exact Or.inr ⟨rfl, k, hk, hk'⟩
    · cases hm
  | @cons x ps ps' _ ih =>
    rw [List.map_cons, List.nodup_cons] at hn
    obtain ⟨last, hl⟩ := ih hn.2
    refine ⟨last, ?_⟩
    intro n c' h'
    obtain ⟨m, v⟩ := x
    rw [Dict.get] at h'
    split at h'
    · rename_i e
      cases h'
      exact ⟨c', by rw [Dict.get, if_pos e], Or.inl rfl⟩
    · rename_i e
      obtain ⟨c, h1, h2⟩ := hl n c' h'
      exact ⟨c, by rw [Dict.get, if_neg e, h1], h2⟩

theorem CutParts.get {d r : Dict (List String)} (h : CutParts d r) {part : String} {ns : List String} (hr : r.get part = some ns) :
    ∃ names, d.get part = some names ∧ CutNames names ns := by
  induction h with
  | nil => cases hr
  | @cut p names ms ps hc =>
    rw [Dict.get] at hr
    split at hr
    · rename_i e
      cases hr
      exact ⟨names, by rw [Dict.get, if_pos e], hc⟩
    · cases hr
  | @cons x ps ps' _ ih =>
    obtain ⟨p, names⟩ := x
    rw [Dict.get] at hr
    split at hr
    · rename_i e
      cases hr
      exact ⟨ns, by rw [Dict.get, if_pos e], .refl _⟩
    · rename_i e
      obtain ⟨names', h1, h2⟩ := ih hr
      exact ⟨names', by rw [Dict.get, if_neg e, h1], h2⟩

theorem CutNames.plain {names ns : List String} (h : CutNames names ns) (hn : ∀ n ∈ names, n.toList.all plainChar = true) :
    ∀ n ∈ ns, n.toList.all plainChar = true := by
  induction h with
  | nil => intro n h; cases h
  | begin hp =>
    intro n h
    rw [List.mem_singleton] at h
    subst h
    rw [List.all_eq_true]
    exact fun c hc => List.all_eq_true.1 (hn _ (List.mem_cons_self ..)) c (hp.subset hc)
  | cons _ ih =>
    intro n h
    rcases List.mem_cons.1 h with rfl | h
    · exact hn _ (List.mem_cons_self ..)
    · exact ih (fun n h => hn n (List.mem_cons_of_mem _ h)) n h

/-- **C113, a dataset that was prepared before**: what can be loaded after the new preparation was killed is as before, or as the new preparation makes it, or the
shards listed before with the new numbers of samples, of which one can be too small, or only the first of the shards of the part. Never a shard that was not
listed, except for a cut name that is the name of another shard, and never more samples than a shard has. -/
theorem C113_again_partial (hx : KeepsPlain expand) (h₀ : Proper X counts₀ parts₀) (h : Proper X counts parts) (d d' : Folder)
    (loader dataset : Option (List Char)) (part : String) (l : List Shard) (hi : d .info = some (render (infoLines' counts₀)))
    (hs : d .split = some (render (splitLines parts₀))) (hk : Died d (prepareWrites counts parts loader dataset) d')
    (hl : loadPart X expand d' part = some l) :
    ListsShards counts₀ parts₀ part l ∨ ListsShards counts parts part l ∨ NewCounts counts parts₀ part l ∨ FirstShards counts parts part l := by
  have cutInfo : ∀ p, p <+: render (infoLines' counts) → d' .info = some p → d' .split = some (render (splitLines parts₀)) → NewCounts counts parts₀ part l := by
    intro p hp e1' e3'
    obtain ⟨i, ds, s, counts', parts', e1, e2, e3, h4, h5, h6, h7⟩ := loadPart_iff.1 hl
    rw [e1'] at e1; rw [e3'] at e3
    cases e1; cases e3
    rw [readSplit_whole h₀.part h₀.listed] at h6
    cases h6
    have hc := readInfo_cut h.name hp h5
    obtain ⟨last, hlast⟩ := hc.get (((sortKeys_perm counts).map Prod.fst).nodup_iff.2 h.keys)
    obtain ⟨-, h8, h9⟩ := (fromConfig_iff hx (fun names hp => h₀.names hp) l).1 h7
    rw [Dict.get_perm (sortKeys_perm parts₀) h₀.partKeys] at h8
    refine ⟨h8, last, ?_⟩
    intro s hs
    obtain ⟨c, e1, e2⟩ := hlast _ _ (h9 s hs)
    rw [Dict.get_perm (sortKeys_perm counts) h.keys] at e1
    exact ⟨c, e1, e2⟩
  have cutSplit : ∀ p, p <+: render (splitLines parts) → d' .info = some (render (infoLines' counts)) → d' .split = some p → FirstShards counts parts part l := by
    intro p hp e1' e3'
    obtain ⟨i, ds, s, counts', parts', e1, e2, e3, h4, h5, h6, h7⟩ := loadPart_iff.1 hl
    rw [e1'] at e1; rw [e3'] at e3
    cases e1; cases e3
    rw [readInfo_whole h.name] at h5
    cases h5
    have hc := readSplit_cut h.part h.listed hp h6
    have hplain : ∀ names, parts'.get part = some names → ∀ n ∈ names, n.toList.all plainChar = true := by
      intro names hnames
      obtain ⟨names', h1, h2⟩ := hc.get hnames
      exact h2.plain (h.names h1)
    obtain ⟨-, h8, h9⟩ := (fromConfig_iff hx hplain l).1 h7
    obtain ⟨names, h1, h2⟩ := hc.get h8
    rw [Dict.get_perm (sortKeys_perm parts) h.partKeys] at h1
    refine ⟨names, h1, h2, ?_⟩
    intro s hs
    rw [← Dict.get_perm (sortKeys_perm counts) h.keys]
    exact h9 s hs
  rw [prepareWrites_eq] at hk
  cases hk with
  | before => exact Or.inl ((load_whole hx h₀ hi hs).1 hl).2
  | during hp => exact Or.inr (Or.inr (Or.inl (cutInfo _ hp put_same (by rw [put_other (by decide), hs]))))
  | later hk =>
    cases hk with
    | before => exact Or.inr (Or.inr (Or.inl (cutInfo _ (List.prefix_refl _) put_same (by rw [put_other (by decide), hs]))))
    | during hp => exact Or.inr (Or.inr (Or.inr (cutSplit _ hp (by rw [put_other (by decide), put_same]) put_same)))
    | later hk =>
      refine Or.inr (Or.inl ((load_whole hx h ?_ ?_).1 hl).2)
      · rw [lastWrites_keep hk (by decide) (by decide), put_other (by decide), put_same]
      · rw [lastWrites_keep hk (by decide) (by decide), put_same]

/-! ## A case, and where the code does not do it -/

def anyText : Texts := ⟨fun _ => true, fun _ => true⟩
def twoCounts : Dict ℕ := [("b.tar", 120), ("a.tar", 3)]
def oneTrain : Dict (List String) := [("train", ["b.tar", "a.tar"]), ("val", [])]
/-- A dataset that is prepared -/
def twoShards : Folder := fun f =>
  match f with
  | .info => some (render (infoLines' twoCounts))
  | .split => some (render (splitLines oneTrain))
  | .dataset => some []
  | .loader => none

theorem two_proper : Proper anyText twoCounts oneTrain := by
  have h1 : PlainName anyText "a.tar" := ⟨by decide, by decide, rfl⟩
  have h2 : PlainName anyText "b.tar" := ⟨by decide, by decide, rfl⟩
  refine ⟨by decide, by decide, ?_, ?_, ?_⟩
  · intro e he
    simp only [twoCounts, List.mem_cons, List.not_mem_nil, or_false] at he
    rcases he with rfl | rfl
    · exact h2
    · exact h1
  · intro p hp
    simp only [oneTrain, List.mem_cons, List.not_mem_nil, or_false] at hp
    rcases hp with rfl | rfl <;> exact ⟨by decide, by decide, rfl⟩
  · intro p hp n hn
    simp only [oneTrain, List.mem_cons, List.not_mem_nil, or_false] at hp
    rcases hp with rfl | rfl
    · simp only [List.mem_cons, List.not_mem_nil, or_false] at hn
      rcases hn with rfl | rfl
      · exact h2
      · exact h1
    · cases hn

/-- The texts are as PyYAML writes them. -/
example : String.ofList (render (infoLines' twoCounts)) = "shard_counts:\n  a.tar: 3\n  b.tar: 120\n" ∧
    String.ofList (render (splitLines oneTrain)) = "exclude: []\nsplit_parts:\n  train:\n  - b.tar\n  - a.tar\n  val: []\n" := by decide +kernel

example : loadPart anyText (fun n => [n]) twoShards "train" = some [⟨"b.tar", 120⟩, ⟨"a.tar", 3⟩] := by decide +kernel

/-- The first preparation comes to its end. -/
example (part : String) (l : List Shard) : loadPart anyText (fun n => [n]) (Folder.done (fun _ => none) (prepareWrites twoCounts oneTrain none (some "x".toList))) part = some l ↔
    ListsShards twoCounts oneTrain part l :=
  C113_complete (fun _ _ => rfl) two_proper _ _ _ ⟨"x".toList, rfl, rfl⟩ part l

/-- **C113 is false of the code**: the same dataset is prepared again and the process dies while it writes `split.yaml`. The part is then loaded without its last
shard, and nobody is told. -/
theorem C113_violated_split : ¬ C113_statement := by
  intro h
  have hdied : Died twoShards (prepareWrites twoCounts oneTrain none none)
      ((twoShards.put .info (render (infoLines' twoCounts))).put .split "exclude: []\nsplit_parts:\n  train:\n  - b.tar\n".toList) := by
    refine .later (.during ?_)
    exact ⟨"  - a.tar\n  val: []\n".toList, by decide +kernel⟩
  have hl : loadPart anyText (fun n => [n])
      ((twoShards.put .info (render (infoLines' twoCounts))).put .split "exclude: []\nsplit_parts:\n  train:\n  - b.tar\n".toList) "train" = some [⟨"b.tar", 120⟩] := by
    decide +kernel
  have hno : ¬ ListsShards twoCounts oneTrain "train" [⟨"b.tar", 120⟩] := by
    rintro ⟨-, h, -⟩
    exact absurd h (by decide)
  rcases h _ _ _ _ _ _ _ _ _ _ _ _ (fun _ _ => rfl) two_proper two_proper rfl rfl hdied hl with h | h <;> exact hno h

/-- **C113 is false of the code**: the process dies while it writes `.info.yaml`. A shard is then taken for one with fewer samples. -/
theorem C113_violated_info : ∃ d', Died twoShards (prepareWrites twoCounts oneTrain none none) d' ∧
    loadPart anyText (fun n => [n]) d' "train" = some [⟨"b.tar", 12⟩, ⟨"a.tar", 3⟩] ∧
    ∀ part l, ListsShards twoCounts oneTrain part l → l ≠ [⟨"b.tar", 12⟩, ⟨"a.tar", 3⟩] := by
  refine ⟨twoShards.put .info "shard_counts:\n  a.tar: 3\n  b.tar: 12".toList, .during ⟨"0\n".toList, by decide +kernel⟩, by decide +kernel, ?_⟩
  rintro part l ⟨-, -, h⟩ rfl
  exact absurd (h _ (List.mem_cons_self ..)) (by decide)

end Verif.Prep
