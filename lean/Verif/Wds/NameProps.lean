import Verif.Wds.ReaderProps

/-!
# Which files belong to one sample (C55)
-/

namespace Verif.Wds

/-- What the regular expression `^((?:.*/|)[^.]+)[.]([^/]*)$` says: the name is `base`, a dot, `ext`; `ext` has no slash; `base` is
an optional directory (empty or ending with a slash), and something that is not empty and has no dot. -/
def NameMatches (l base ext : Name) : Prop :=
  l = base ++ '.' :: ext ∧ '/' ∉ ext ∧
    ∃ d s : Name, base = d ++ s ∧ (d = [] ∨ ∃ d', d = d' ++ ['/']) ∧ s ≠ [] ∧ '.' ∉ s

/-- What the regular expression `__[^/]*__($|/)` says, matched at the beginning. -/
def MetaMatches (l : Name) : Prop :=
  ∃ m rest : Name, l = ['_', '_'] ++ m ++ ['_', '_'] ++ rest ∧ '/' ∉ m ∧ (rest = [] ∨ ∃ r, rest = '/' :: r)

theorem splitDir_append (l : Name) : (splitDir l).1 ++ (splitDir l).2 = l := by
  unfold splitDir
  rw [← List.reverse_append, List.takeWhile_append_dropWhile, List.reverse_reverse]

theorem takeWhile_slash (l : Name) : '/' ∉ l.takeWhile (· ≠ '/') := by
  intro h
  have := List.all_eq_true.1 (List.all_takeWhile (p := fun c => decide (c ≠ '/')) (l := l)) '/' h
  simp at this

theorem splitDir_file (l : Name) : '/' ∉ (splitDir l).2 := fun h => takeWhile_slash l.reverse (List.mem_reverse.1 h)

theorem takeWhile_dot (l : Name) : '.' ∉ l.takeWhile (· ≠ '.') := by
  intro h
  have := List.all_eq_true.1 (List.all_takeWhile (p := fun c => decide (c ≠ '.')) (l := l)) '.' h
  simp at this

theorem splitDir_dir (l : Name) : (splitDir l).1 = [] ∨ ∃ d', (splitDir l).1 = d' ++ ['/'] := by
  unfold splitDir
  cases h : l.reverse.dropWhile (· ≠ '/') with
  | nil => left; simp
  | cons c t =>
    right
    have hc := List.head?_dropWhile_not (fun c : Char => decide (c ≠ '/')) l.reverse
    rw [h] at hc
    simp only [List.head?_cons] at hc
    refine ⟨t.reverse, ?_⟩
    have : c = '/' := by simpa using hc
    simp [this]

theorem takeWhile_split {p : Char → Bool} {a b : Name} {c : Char} (h1 : ∀ x ∈ a, p x = true) (h2 : p c = false) :
    (a ++ c :: b).takeWhile p = a ∧ (a ++ c :: b).dropWhile p = c :: b := by
  constructor
  · rw [List.takeWhile_append_of_pos h1, List.takeWhile_cons_of_neg (by simp [h2])]
    simp
  · rw [List.dropWhile_append_of_pos h1, List.dropWhile_cons_of_neg (by simp [h2])]

theorem splitDir_slash {d s : Name} (h : '/' ∉ s) : splitDir (d ++ '/' :: s) = (d ++ ['/'], s) := by
  unfold splitDir
  have h1 : ∀ x ∈ s.reverse, decide (x ≠ '/') = true := by
    intro x hx
    simp only [decide_eq_true_eq]
    rintro rfl
    exact h (List.mem_reverse.1 hx)
  have hr : (d ++ '/' :: s).reverse = s.reverse ++ '/' :: d.reverse := by simp
  obtain ⟨h3, h4⟩ := takeWhile_split (p := fun c => decide (c ≠ '/')) (b := d.reverse) (c := '/') h1 (by simp)
  rw [hr, h3, h4]
  simp

theorem takeWhile_all {p : Char → Bool} {a : Name} (h : ∀ x ∈ a, p x = true) : a.takeWhile p = a := by
  have := List.takeWhile_append_of_pos (l₂ := []) h
  simpa using this

theorem splitDir_none {s : Name} (h : '/' ∉ s) : splitDir s = ([], s) := by
  unfold splitDir
  have h1 : ∀ x ∈ s.reverse, decide (x ≠ '/') = true := by
    intro x hx
    simp only [decide_eq_true_eq]
    rintro rfl
    exact h (List.mem_reverse.1 hx)
  have h2 := List.dropWhile_append_of_pos (l₂ := []) h1
  simp only [List.append_nil, List.dropWhile_nil] at h2
  rw [takeWhile_all h1, h2]
  simp

theorem splitDir_of {d s : Name} (hd : d = [] ∨ ∃ d', d = d' ++ ['/']) (h : '/' ∉ s) : splitDir (d ++ s) = (d, s) := by
  rcases hd with rfl | ⟨d', rfl⟩
  · exact splitDir_none h
  · rw [List.append_assoc]
    exact splitDir_slash h

/-- The last slash of a name -/
theorem last_slash (s : Name) : '/' ∉ s ∨ ∃ a b, s = a ++ '/' :: b ∧ '/' ∉ b := by
  rcases splitDir_dir s with h | ⟨d', h⟩
  · left
    have := splitDir_append s
    rw [h] at this
    rw [← this]
    exact splitDir_file s
  · right
    refine ⟨d', (splitDir s).2, ?_, splitDir_file s⟩
    have := splitDir_append s
    rw [h] at this
    simpa using this.symm

theorem splitName_file {d f x : Name} (hd : d = [] ∨ ∃ d', d = d' ++ ['/']) (hf : '/' ∉ f) (hx : '/' ∉ x) (hdot : '.' ∉ f) :
    splitName (d ++ f ++ '.' :: x) =
      if f ≠ [] then some (d ++ f, x) else if d ≠ [] ∧ '.' ∉ (splitDir d.dropLast).2 then some (d, x) else none := by
  have hs : splitDir (d ++ f ++ '.' :: x) = (d, f ++ '.' :: x) := by
    rw [List.append_assoc]
    exact splitDir_of hd (by simp [hf, hx])
  obtain ⟨h3, h4⟩ := takeWhile_split (p := fun c => decide (c ≠ '.')) (a := f) (b := x) (c := '.')
    (by intro y hy; simp only [decide_eq_true_eq]; rintro rfl; exact hdot hy) (by simp)
  unfold splitName
  rw [hs]
  simp only [h3, h4]

/-- **C55.** The base name and the extension of a file are given by the regular expression, and they are unique. -/
theorem C55_split (l b x : Name) : splitName l = some (b, x) ↔ NameMatches l b x := by
  constructor
  · intro h
    have hl := splitDir_append l
    have hf := splitDir_file l
    have hd := splitDir_dir l
    generalize hdir : (splitDir l).1 = dir at *
    generalize hfile : (splitDir l).2 = file at *
    have hdrop := List.head?_dropWhile_not (fun c : Char => decide (c ≠ '.')) file
    have htd := List.takeWhile_append_dropWhile (p := fun c : Char => decide (c ≠ '.')) (l := file)
    have hdot := takeWhile_dot file
    cases hw : file.dropWhile (fun c : Char => decide (c ≠ '.')) with
    | nil =>
      unfold splitName at h
      simp only [hfile, hw] at h
      cases h
    | cons c ext =>
      rw [hw] at hdrop htd
      have hc : c = '.' := by simpa using hdrop
      subst hc
      generalize file.takeWhile (fun c : Char => decide (c ≠ '.')) = stem at htd hdot
      have hs : '/' ∉ stem := fun hm => hf (by rw [← htd]; simp [hm])
      have he : '/' ∉ ext := fun hm => hf (by rw [← htd]; simp [hm])
      have hl' : l = dir ++ stem ++ '.' :: ext := by rw [← hl, ← htd]; simp
      have h0 := h
      rw [hl', splitName_file hd hs he hdot] at h
      split at h
      next hne =>
        simp only [Option.some.injEq, Prod.mk.injEq] at h
        obtain ⟨rfl, rfl⟩ := h
        exact ⟨hl', he, dir, stem, rfl, hd, hne, hdot⟩
      next hne =>
        simp only [ne_eq, Classical.not_not] at hne
        subst hne
        split at h
        next hc =>
          simp only [Option.some.injEq, Prod.mk.injEq] at h
          obtain ⟨rfl, rfl⟩ := h
          refine ⟨by simpa using hl', he, ?_⟩
          rcases hd with rfl | ⟨d', rfl⟩
          · exact absurd rfl hc.1
          · have h5 := hc.2
            rw [List.dropLast_concat] at h5
            refine ⟨(splitDir d').1, (splitDir d').2 ++ ['/'], ?_, splitDir_dir d', by simp, by simp [h5]⟩
            rw [← List.append_assoc, splitDir_append]
        next => cases h
  · rintro ⟨rfl, hx, d, s, rfl, hd, hne, hdot⟩
    rcases last_slash s with hs | ⟨s1, s2, rfl, hs2⟩
    · rw [splitName_file hd hs hx hdot, if_pos hne]
    · have hd2 : '.' ∉ s2 := fun hm => hdot (by simp [hm])
      have hd1 : '.' ∉ s1 := fun hm => hdot (by simp [hm])
      have e : d ++ (s1 ++ '/' :: s2) = (d ++ s1 ++ ['/']) ++ s2 := by simp
      rw [e, splitName_file (Or.inr ⟨_, rfl⟩) hs2 hx hd2]
      split
      · rfl
      · next h =>
        simp only [ne_eq, Classical.not_not] at h
        subst h
        rw [if_pos]
        · simp
        · refine ⟨by simp, ?_⟩
          rw [List.dropLast_concat]
          rcases last_slash s1 with h1 | ⟨a, b, rfl, hb⟩
          · rw [splitDir_of hd h1]
            exact hd1
          · rw [show d ++ (a ++ '/' :: b) = (d ++ a) ++ '/' :: b by simp, splitDir_slash hb]
            exact fun hm => hd1 (by simp [hm])

/-- Files whose names agree up to the first dot of the last component of the path have the same base name (if the last component does not begin with
a dot), and others do not. -/
theorem C55_same_sample {d d' f f' x x' : Name} (hd : d = [] ∨ ∃ e, d = e ++ ['/']) (hd' : d' = [] ∨ ∃ e, d' = e ++ ['/'])
    (hf : '/' ∉ f ∧ '.' ∉ f ∧ f ≠ []) (hf' : '/' ∉ f' ∧ '.' ∉ f' ∧ f' ≠ []) (hx : '/' ∉ x) (hx' : '/' ∉ x') :
    (splitName (d ++ f ++ '.' :: x)).map (·.1) = (splitName (d' ++ f' ++ '.' :: x')).map (·.1) ↔ d = d' ∧ f = f' := by
  rw [splitName_file hd hf.1 hx hf.2.1, splitName_file hd' hf'.1 hx' hf'.2.1, if_pos hf.2.2, if_pos hf'.2.2]
  simp only [Option.map_some, Option.some.injEq]
  constructor
  · intro h
    have h1 := splitDir_of hd hf.1
    rw [h, splitDir_of hd' hf'.1] at h1
    simp only [Prod.mk.injEq] at h1
    exact ⟨h1.1.symm, h1.2.symm⟩
  · rintro ⟨rfl, rfl⟩
    rfl

/-- **C55, metadata**: which members are skipped is given by the regular expression. -/
theorem C55_meta (l : Name) : isMeta l = true ↔ MetaMatches l := by
  have key : ∀ first : Name, (4 ≤ first.length ∧ first.take 2 = ['_', '_'] ∧ first.reverse.take 2 = ['_', '_']) ↔
      ∃ m, first = ['_', '_'] ++ m ++ ['_', '_'] := by
    intro first
    constructor
    · rintro ⟨h1, h2, h3⟩
      match first, h1, h2 with
      | a :: b :: t, h1, h2 =>
        simp only [List.take_succ_cons, List.take_zero, List.cons.injEq, and_true] at h2
        obtain ⟨rfl, rfl⟩ := h2
        refine ⟨t.take (t.length - 2), ?_⟩
        have h4 : (t.drop (t.length - 2)) = ['_', '_'] := by
          have h5 : ('_' :: '_' :: t).reverse.take 2 = t.reverse.take 2 := by
            simp only [List.reverse_cons, List.append_assoc]
            rw [List.take_append_of_le_length (by simp at h1; simp; omega)]
          rw [h5, List.take_reverse] at h3
          have := congrArg List.reverse h3
          simpa using this
        conv => lhs; rw [← List.take_append_drop (t.length - 2) t, h4]
        simp
    · rintro ⟨m, rfl⟩
      refine ⟨by simp, by simp, by simp⟩
  unfold isMeta
  simp only [Bool.and_eq_true, decide_eq_true_eq, and_assoc]
  rw [key]
  constructor
  · rintro ⟨m, hm⟩
    have hs := takeWhile_slash l
    have htd := List.takeWhile_append_dropWhile (p := fun c : Char => decide (c ≠ '/')) (l := l)
    have hdrop := List.head?_dropWhile_not (fun c : Char => decide (c ≠ '/')) l
    rw [hm] at hs htd
    refine ⟨m, l.dropWhile (fun c : Char => decide (c ≠ '/')), htd.symm, fun h => hs (by simp [h]), ?_⟩
    cases hw : l.dropWhile (fun c : Char => decide (c ≠ '/')) with
    | nil => left; rfl
    | cons c t =>
      right
      rw [hw] at hdrop
      have : c = '/' := by simpa using hdrop
      exact ⟨t, by rw [this]⟩
  · rintro ⟨m, rest, rfl, hm, hr⟩
    refine ⟨m, ?_⟩
    have h1 : ∀ y ∈ ['_', '_'] ++ m ++ ['_', '_'], decide (y ≠ '/') = true := by
      intro y hy
      simp only [decide_eq_true_eq]
      rintro rfl
      simp [hm] at hy
    rcases hr with rfl | ⟨r, rfl⟩
    · rw [List.append_nil]
      exact takeWhile_all h1
    · exact (takeWhile_split (p := fun c => decide (c ≠ '/')) h1 (by simp)).1

/-- **C55**: which members belong to samples, and with which base name and extension. -/
theorem C55_part {B : Type} (m : Member B) (b x : Name) :
    m.part = some (b, x) ↔ m.regular = true ∧ ¬ MetaMatches m.name ∧ NameMatches m.name b x := by
  unfold Member.part
  rw [← C55_meta, ← C55_split]
  cases m.regular <;> cases isMeta m.name <;> simp

/-- Examples: directories with dots, several extensions, no extension, names that begin with a dot, metadata. -/
example : splitName "a.b/c.seg.png".toList = some ("a.b/c".toList, "seg.png".toList) ∧ splitName "a.b/c".toList = none ∧
    splitName "a/.png".toList = some ("a/".toList, "png".toList) ∧ splitName ".png".toList = none ∧
    isMeta "__index__/a.txt".toList = true ∧ isMeta "a/__index__/a.txt".toList = false := by decide +kernel

/-- **C55 for whole shards**: the samples of a shard are the unique decomposition of its files (in order) into runs with one base name
each, such that neighbouring runs have different base names. (`IsRuns` says that each list is nonempty, with one base name, and the next list begins
with another.) -/
theorem C55_groups {B : Type} (es : List (Entry B)) (gs : List (List (Entry B))) :
    gs = groups es ↔ gs.flatten = es ∧ IsRuns gs := by
  constructor
  · rintro rfl
    exact ⟨groups_flatten es, groups_isRuns es⟩
  · rintro ⟨rfl, h⟩
    exact (groups_of_runs h).symm

end Verif.Wds
