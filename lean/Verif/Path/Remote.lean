import Verif.Path.RemoteModel

/-!
# C111: remote data are accessed where the URL and the configuration say

Which configuration file counts, what it says about a remote, and which connections the accesses of all processes use.
-/

namespace Verif.Path

/-! ## Specification -/

/-- The places of the configuration, the most important one first: beside the program `rclone`, in `$XDG_CONFIG_HOME/rclone`, in
`~/.config/rclone`, and `~/.rclone.conf` -/
def candidates (M : Machine) : List PPath :=
  (match M.exe with
    | some e => if M.isFile e then [{ e with names := e.names.dropLast ++ ["rclone.conf".toList] }] else []
    | none => []) ++
  (match M.xdg with
    | some x => if x = [] then [] else [(parse x).join ⟨.rel, ["rclone".toList, "rclone.conf".toList]⟩]
    | none => []) ++
  [⟨M.home.root, M.home.names ++ [".config".toList, "rclone".toList, "rclone.conf".toList]⟩, ⟨M.home.root, M.home.names ++ [".rclone.conf".toList]⟩]

/-- What a section says for an option: its own value, or the one of the section `DEFAULT` -/
def said (ini : Ini) (opts : List (Str × Str)) (option : String) : Option Str :=
  (opts.lookup option.toList).or (ini.defaults.lookup option.toList)

/-- There is no `%` in the file. -/
def Ini.NoPercent (ini : Ini) : Prop := (∀ s ∈ ini.sections, ∀ o ∈ s.2, '%' ∉ o.2) ∧ ∀ o ∈ ini.defaults, '%' ∉ o.2

/-- `http://...` or `https://...` -/
def HasScheme (e : Str) : Prop := ∃ rest, e = "http://".toList ++ rest ∨ e = "https://".toList ++ rest

/-- A text as it has to be written in the file: `%%` for `%` -/
def escape : Str → Str
  | [] => []
  | c :: s => if c = '%' then '%' :: '%' :: escape s else c :: escape s

/-! ## The configuration -/

/-- **C111, the configuration file**: the first of the places that is a file (if a file is in a directory, the directory is one). -/
theorem C111_location (M : Machine) (hd : ∀ x, M.xdg = some x → M.isFile ((parse x).join ⟨.rel, ["rclone".toList, "rclone.conf".toList]⟩) = true → M.isDir (parse x) = true) :
    configPath M = (candidates M).find? M.isFile := by
  have e1 : parse "rclone/rclone.conf".toList = ⟨.rel, ["rclone".toList, "rclone.conf".toList]⟩ := by decide
  have e2 : M.home.join (parse ".config/rclone/rclone.conf".toList) = ⟨M.home.root, M.home.names ++ [".config".toList, "rclone".toList, "rclone.conf".toList]⟩ := by
    have : parse ".config/rclone/rclone.conf".toList = ⟨.rel, [".config".toList, "rclone".toList, "rclone.conf".toList]⟩ := by decide
    rw [this]; rfl
  have e3 : M.home.join (parse ".rclone.conf".toList) = ⟨M.home.root, M.home.names ++ [".rclone.conf".toList]⟩ := by
    have : parse ".rclone.conf".toList = ⟨.rel, [".rclone.conf".toList]⟩ := by decide
    rw [this]; rfl
  have exe : (match M.exe with
    | some e => if M.isFile e then [({ e with names := e.names.dropLast ++ ["rclone.conf".toList] } : PPath)] else []
    | none => []).find? M.isFile = besideExe M := by
    unfold besideExe
    cases M.exe with
    | none => rfl
    | some e =>
      dsimp only
      by_cases he : M.isFile e = true
      · rw [if_pos he, if_pos he]
        show (match M.isFile (withName e conf) with | true => some (withName e conf) | false => List.find? M.isFile []) = _
        cases M.isFile (withName e conf) <;> rfl
      · rw [if_neg he, if_neg he]; rfl
  have xdg : (match M.xdg with
    | some x => if x = [] then [] else [(parse x).join ⟨.rel, ["rclone".toList, "rclone.conf".toList]⟩]
    | none => []).find? M.isFile = inXdg M := by
    unfold inXdg
    rw [e1]
    cases hx : M.xdg with
    | none => rfl
    | some x =>
      dsimp only
      by_cases h0 : x = []
      · rw [if_pos h0, if_neg (by simp [h0])]; rfl
      · rw [if_neg h0]
        cases hf : M.isFile ((parse x).join ⟨.rel, ["rclone".toList, "rclone.conf".toList]⟩) with
        | true => rw [if_pos (by simp [h0, hd x hx hf]), if_pos rfl, List.find?_cons, hf]
        | false =>
          simp only [List.find?_cons, hf, List.find?_nil, Bool.false_eq_true, if_false, ite_self]
  unfold candidates configPath
  rw [List.find?_append, List.find?_append, exe, xdg, e2, e3]
  cases besideExe M with
  | some p => rfl
  | none =>
    cases inXdg M with
    | some p => rfl
    | none =>
      simp only [Option.or, List.find?_cons]
      cases M.isFile _ with
      | true => rfl
      | false =>
        cases M.isFile _ <;> rfl

theorem interpText_plain {sub : Str → Option Str} {s : Str} (h : '%' ∉ s) {n : Nat} (hn : s.length ≤ n) : interpText sub n s = some s := by
  induction s generalizing n with
  | nil => cases n <;> rfl
  | cons c s ih =>
    cases n with
    | zero => simp at hn
    | succ n =>
      have hc : c ≠ '%' := fun e => h (by simp [e])
      simp only [interpText, hc, ne_eq, not_false_eq_true, if_true]
      rw [ih (fun e => h (List.mem_cons_of_mem _ e)) (by simpa using hn)]
      rfl

theorem interpText_escape {sub : Str → Option Str} (s : Str) {n : Nat} (hn : (escape s).length ≤ n) : interpText sub n (escape s) = some s := by
  induction s generalizing n with
  | nil => cases n <;> rfl
  | cons c s ih =>
    simp only [escape] at hn ⊢
    by_cases hc : c = '%'
    · subst hc
      simp only [if_true, List.length_cons] at hn ⊢
      cases n with
      | zero => omega
      | succ n =>
        simp only [interpText, ne_eq, not_true_eq_false, if_false]
        rw [ih (by omega)]
        rfl
    · simp only [hc, if_false, List.length_cons] at hn ⊢
      cases n with
      | zero => omega
      | succ n =>
        simp only [interpText, hc, ne_eq, not_false_eq_true, if_true]
        rw [ih (by omega)]
        rfl

theorem interpText_bad {sub : Str → Option Str} {a b : Str} (ha : '%' ∉ a) (hb : ∀ c, b.head? = some c → c ≠ '%' ∧ c ≠ '(') (n : Nat) :
    interpText sub n (a ++ '%' :: b) = none := by
  induction a generalizing n with
  | nil =>
    cases n with
    | zero => rfl
    | succ n =>
      simp only [List.nil_append, interpText, ne_eq, not_true_eq_false, if_false]
      cases b with
      | nil => rfl
      | cons c b =>
        obtain ⟨h1, h2⟩ := hb c rfl
        split
        · rename_i h; cases h; exact absurd rfl h1
        · rename_i h; cases h; exact absurd rfl h2
        · rfl
  | cons c a ih =>
    cases n with
    | zero => rfl
    | succ n =>
      have hc : c ≠ '%' := fun e => ha (by simp [e])
      simp only [List.cons_append, interpText, hc, ne_eq, not_false_eq_true, if_true]
      rw [ih (fun e => ha (List.mem_cons_of_mem _ e))]
      rfl

theorem lookup_memP {l : List (Str × Str)} {k v : Str} (h : l.lookup k = some v) : (k, v) ∈ l := by
  induction l with
  | nil => cases h
  | cons p l ih =>
    obtain ⟨k', v'⟩ := p
    simp only [List.lookup] at h
    cases hb : k == k' with
    | true =>
      rw [hb] at h
      rw [eq_of_beq hb, ← Option.some.inj h]
      exact List.mem_cons_self ..
    | false => rw [hb] at h; exact List.mem_cons_of_mem _ (ih h)

theorem iniGet_plain {lower : Str → Str} {ini : Ini} {opts : List (Str × Str)} (h : ∀ o ∈ opts, '%' ∉ o.2) (hd : ∀ o ∈ ini.defaults, '%' ∉ o.2) (k : String) :
    iniGet lower ini opts k.toList = some (said ini opts k) := by
  unfold iniGet
  show (match said ini opts k with | none => _ | some v => _) = _
  cases hs : said ini opts k with
  | none => rfl
  | some v =>
    have hv : '%' ∉ v := by
      unfold said at hs
      cases h1 : opts.lookup k.toList with
      | some v' =>
        rw [h1] at hs
        cases hs
        exact h _ (lookup_memP h1)
      | none =>
        rw [h1] at hs
        exact hd _ (lookup_memP hs)
    show (interpText _ v.length v).map some = _
    rw [interpText_plain hv (Nat.le_refl _)]
    rfl

/-- What the options of a section say -/
def entryOf (ini : Ini) (opts : List (Str × Str)) : Entry :=
  ⟨said ini opts "type", said ini opts "provider", said ini opts "access_key_id", said ini opts "secret_access_key", said ini opts "region", said ini opts "endpoint"⟩

theorem readEntries_plain {lower : Str → Str} {ini : Ini} (hd : ∀ o ∈ ini.defaults, '%' ∉ o.2) (l : List (Str × List (Str × Str)))
    (h : ∀ s ∈ l, ∀ o ∈ s.2, '%' ∉ o.2) : readEntries lower ini l = some (l.map fun s => (s.1, entryOf ini s.2)) := by
  induction l with
  | nil => rfl
  | cons s l ih =>
    obtain ⟨name, opts⟩ := s
    simp only [readEntries]
    rw [ih fun s hs => h s (List.mem_cons_of_mem _ hs)]
    have ho := h _ (List.mem_cons_self ..)
    have : readEntry lower ini opts = some (entryOf ini opts) := by
      unfold readEntry
      simp only [iniGet_plain ho hd]
      rfl
    rw [this]
    rfl

theorem lookup_entries {ini : Ini} {r : Str} {l : List (Str × List (Str × Str))} (hn : (l.map (·.1)).Nodup) (e : Entry) :
    (l.map fun s => (s.1, entryOf ini s.2)).lookup r = some e ↔ ∃ opts, (r, opts) ∈ l ∧ e = entryOf ini opts := by
  induction l with
  | nil => simp
  | cons s l ih =>
    obtain ⟨name, opts⟩ := s
    simp only [List.map_cons, List.nodup_cons] at hn
    simp only [List.map_cons, List.lookup]
    cases hb : r == name with
    | true =>
      have hr := eq_of_beq hb
      subst hr
      dsimp only
      constructor
      · intro h; exact ⟨opts, List.mem_cons_self .., (Option.some.inj h).symm⟩
      · rintro ⟨o, ho, rfl⟩
        rcases List.mem_cons.1 ho with h | h
        · cases h; rfl
        · exact absurd (List.mem_map_of_mem (f := fun s : Str × List (Str × Str) => s.1) h) hn.1
    | false =>
      have hr : r ≠ name := by simpa using hb
      dsimp only
      rw [ih hn.2]
      constructor
      · rintro ⟨o, ho, he⟩; exact ⟨o, List.mem_cons_of_mem _ ho, he⟩
      · rintro ⟨o, ho, he⟩
        rcases List.mem_cons.1 ho with h | h
        · cases h; exact absurd rfl hr
        · exact ⟨o, h, he⟩

/-- **C111, the credentials**: a remote can be used exactly if the file has a section of this name with type `s3`, and then the key, the secret, the region and
the endpoint are the ones of this section. For files without `%` (`C111_violated_percent`); the names of sections are different
(`ConfigParser` checks that). -/
theorem C111_credentials_partial (lower : Str → Str) (ini : Ini) (hn : (ini.sections.map (·.1)).Nodup) (hp : ini.NoPercent) (r : Str) (a : Args) :
    remoteArgs lower ini r = some a ↔ ∃ opts t, (r, opts) ∈ ini.sections ∧ said ini opts "type" = some t ∧ lower t = "s3".toList ∧
      a = ⟨said ini opts "access_key_id", said ini opts "secret_access_key", endpointUrl (said ini opts "endpoint"), said ini opts "region"⟩ := by
  unfold remoteArgs
  rw [readEntries_plain hp.2 _ hp.1]
  dsimp only
  have hl := lookup_entries (ini := ini) (r := r) hn
  cases he : (ini.sections.map fun s => (s.1, entryOf ini s.2)).lookup r with
  | none =>
    dsimp only
    constructor
    · intro h; cases h
    · rintro ⟨opts, t, hm, _⟩
      rw [(hl _).2 ⟨opts, hm, rfl⟩] at he
      cases he
  | some e =>
    dsimp only
    obtain ⟨opts, hm, rfl⟩ := (hl e).1 he
    have huniq : ∀ opts', (r, opts') ∈ ini.sections → entryOf ini opts' = entryOf ini opts := by
      intro opts' hm'
      have := (hl _).2 ⟨opts', hm', rfl⟩
      rw [he] at this
      exact (Option.some.inj this).symm
    show (match said ini opts "type" with | none => none | some t => _) = some a ↔ _
    constructor
    · intro h
      cases ht : said ini opts "type" with
      | none => rw [ht] at h; cases h
      | some t =>
        rw [ht] at h
        dsimp only at h
        split at h
        · cases h
        · rename_i hs
          exact ⟨opts, t, hm, ht, Decidable.not_not.1 hs, (Option.some.inj h).symm⟩
    · rintro ⟨opts', t, hm', ht, hs, rfl⟩
      have hu := huniq opts' hm'
      have h1 : said ini opts' "type" = said ini opts "type" := congrArg Entry.type hu
      have h2 : said ini opts' "access_key_id" = said ini opts "access_key_id" := congrArg Entry.key hu
      have h3 : said ini opts' "secret_access_key" = said ini opts "secret_access_key" := congrArg Entry.secret hu
      have h4 : said ini opts' "endpoint" = said ini opts "endpoint" := congrArg Entry.endpoint hu
      have h5 : said ini opts' "region" = said ini opts "region" := congrArg Entry.region hu
      rw [← h1, ht, h2, h3, h4, h5]
      dsimp only
      rw [if_neg (not_not_intro hs)]
      rfl

/-- **C111, the endpoint**: one with a scheme is taken as it is, another one is accessed with https. For names that do not start with `http`
(`C111_violated_http`). -/
theorem C111_endpoint_partial (e : Str) :
    (HasScheme e → endpointUrl (some e) = some e) ∧
    (e ≠ [] → (¬ ∃ rest, e = "http".toList ++ rest) → endpointUrl (some e) = some ("https://".toList ++ e)) ∧
    endpointUrl (some []) = some [] ∧ endpointUrl none = none := by
  refine ⟨?_, ?_, rfl, rfl⟩
  · rintro ⟨rest, rfl | rfl⟩
    · have h1 : "http://".toList = ['h', 't', 't', 'p', ':', '/', '/'] := by decide
      have h2 : "http".toList = ['h', 't', 't', 'p'] := by decide
      simp [h1, h2, endpointUrl, List.isPrefixOf]
    · have h1 : "https://".toList = ['h', 't', 't', 'p', 's', ':', '/', '/'] := by decide
      have h2 : "http".toList = ['h', 't', 't', 'p'] := by decide
      simp [h1, h2, endpointUrl, List.isPrefixOf]
  · intro h0 h
    cases e with
    | nil => exact absurd rfl h0
    | cons c s =>
      refine if_neg (c := "http".toList.isPrefixOf (c :: s) = true) fun hp => h ?_
      obtain ⟨t, ht⟩ := List.isPrefixOf_iff_prefix.1 hp
      exact ⟨t, ht.symm⟩

/-- **C111, `%`**: a value with `%%` for each `%` is read as meant. -/
theorem C111_escaped (lower : Str → Str) (ini : Ini) (opts : List (Str × Str)) (k v : Str) (h : opts.lookup k = some (escape v)) :
    iniGet lower ini opts k = some (some v) := by
  unfold iniGet rawGet
  rw [h]
  show (interpText _ (escape v).length (escape v)).map some = _
  rw [interpText_escape v (Nat.le_refl _)]
  rfl

/-- A piece of a value: text (each `%` is doubled), or the value of another option of the section or the defaults -/
inductive Piece where
  | text (s : Str)
  | ref (name : Str)

def Piece.source : Piece → Str
  | .text s => escape s
  | .ref name => '%' :: '(' :: (name ++ [')', 's'])

/-- What a piece stands for; a value that is referred to may refer to others, to a depth of nine -/
inductive Piece.Means (lower : Str → Str) (ini : Ini) (opts : List (Str × Str)) : Piece → Str → Prop
  | text (s : Str) : Means lower ini opts (.text s) s
  | ref {name v w : Str} : name ≠ [] → ')' ∉ name → rawGet ini opts (lower name) = some v → interp lower (rawGet ini opts) 9 v = some w →
      Means lower ini opts (.ref name) w

theorem interpText_escape_append {sub : Str → Option Str} (s t r : Str) {n : Nat} (ht : ∀ m, t.length ≤ m → interpText sub m t = some r)
    (hn : (escape s ++ t).length ≤ n) : interpText sub n (escape s ++ t) = some (s ++ r) := by
  induction s generalizing n with
  | nil => exact ht n (by simpa [escape] using hn)
  | cons c s ih =>
    simp only [escape] at hn ⊢
    by_cases hc : c = '%'
    · subst hc
      simp only [if_true, List.cons_append, List.length_cons] at hn ⊢
      cases n with
      | zero => omega
      | succ n =>
        simp only [interpText, ne_eq, not_true_eq_false, if_false]
        rw [ih (by omega)]
        rfl
    · simp only [hc, if_false, List.cons_append, List.length_cons] at hn ⊢
      cases n with
      | zero => omega
      | succ n =>
        simp only [interpText, hc, ne_eq, not_false_eq_true, if_true]
        rw [ih (by omega)]
        rfl

theorem keyRef_name {name rest : Str} (h0 : name ≠ []) (h1 : ')' ∉ name) : keyRef (name ++ ')' :: 's' :: rest) = some (name, rest) := by
  have key : ∀ l : Str, ')' ∉ l → (l ++ ')' :: 's' :: rest).takeWhile (· ≠ ')') = l ∧ (l ++ ')' :: 's' :: rest).dropWhile (· ≠ ')') = ')' :: 's' :: rest := by
    intro l hl
    induction l with
    | nil => simp
    | cons c l ih =>
      have hc : c ≠ ')' := fun e => hl (by simp [e])
      obtain ⟨e1, e2⟩ := ih fun e => hl (List.mem_cons_of_mem _ e)
      rw [List.cons_append, List.takeWhile_cons, List.dropWhile_cons, if_pos (by simpa using hc), if_pos (by simpa using hc), e1, e2]
      exact ⟨rfl, rfl⟩
  unfold keyRef
  obtain ⟨e1, e2⟩ := key name h1
  rw [e1, e2]
  cases name with
  | nil => exact absurd rfl h0
  | cons c l => rfl

theorem interp_plain {lower : Str → Str} {vars : Str → Option Str} {v : Str} (h : '%' ∉ v) (d : Nat) : interp lower vars (d + 1) v = some v :=
  interpText_plain h (Nat.le_refl _)

/-- **C111, references**: a value made of text and references `%(option)s` is read as this text with the values of the options, whose names are taken in lower
case. -/
theorem C111_references (lower : Str → Str) (ini : Ini) (opts : List (Str × Str)) (k : Str) (ps : List (Piece × Str))
    (hp : ∀ p ∈ ps, p.1.Means lower ini opts p.2) (h : opts.lookup k = some (ps.flatMap fun p => p.1.source)) :
    iniGet lower ini opts k = some (some (ps.flatMap fun p => p.2)) := by
  unfold iniGet
  rw [show rawGet ini opts k = some (ps.flatMap fun p => p.1.source) by unfold rawGet; rw [h]; rfl]
  dsimp only
  rw [show interp lower (rawGet ini opts) 10 (ps.flatMap fun p => p.1.source) = some (ps.flatMap fun p => p.2) from ?_]
  · rfl
  unfold interp
  generalize hsub : (fun name => match rawGet ini opts (lower name) with
      | some v => if '%' ∈ v then interp lower (rawGet ini opts) 9 v else some v
      | none => none) = sub
  have href : ∀ name w, (Piece.ref name).Means lower ini opts w → sub name = some w := by
    rintro name w ⟨⟩
    rename_i v h0 h1 h2 h3
    rw [← hsub]
    dsimp only
    rw [h2]
    dsimp only
    split
    · exact h3
    · rename_i hv
      rw [interp_plain hv 8] at h3
      exact h3
  clear h
  have : ∀ n, (ps.flatMap fun p => p.1.source).length ≤ n → interpText sub n (ps.flatMap fun p => p.1.source) = some (ps.flatMap fun p => p.2) := by
    induction ps with
    | nil => intro n _; cases n <;> rfl
    | cons p ps ih =>
      intro n hn
      have ih := ih fun p h => hp p (List.mem_cons_of_mem _ h)
      have hm := hp p (List.mem_cons_self ..)
      obtain ⟨p, w⟩ := p
      dsimp only at hm
      rw [List.flatMap_cons, List.flatMap_cons] at *
      cases p with
      | text s =>
        cases hm
        exact interpText_escape_append _ _ _ (fun m hm => ih m hm) hn
      | ref name =>
        have hs := href name w hm
        cases hm with
        | ref h0 h1 _ _ =>
        cases n with
        | zero => simp [Piece.source] at hn
        | succ n =>
          generalize List.flatMap (fun p : Piece × Str => p.1.source) ps = R at hn ih ⊢
          dsimp only [Piece.source] at hn ⊢
          rw [List.cons_append, List.cons_append, List.append_assoc]
          simp only [interpText, ne_eq, not_true_eq_false, if_false]
          rw [show name ++ ([')', 's'] ++ R) = name ++ ')' :: 's' :: R from rfl, keyRef_name h0 h1]
          dsimp only
          rw [hs, ih n ?_]
          simp only [List.length_append, List.length_cons] at hn
          omega
  exact this _ (Nat.le_refl _)

/-- `https://%(HOST)s/100%%` with `host = h.org` -/
example (ini : Ini) : iniGet (fun s => s.map Char.toLower) ini [("endpoint".toList, "https://%(HOST)s/100%%".toList), ("host".toList, "h.org".toList)] "endpoint".toList =
    some (some "https://h.org/100%".toList) :=
  C111_references _ ini _ _ [(.text "https://".toList, "https://".toList), (.ref "HOST".toList, "h.org".toList), (.text "/100%".toList, "/100%".toList)]
    (by
      intro p hp
      simp only [List.mem_cons, List.not_mem_nil, or_false] at hp
      rcases hp with rfl | rfl | rfl
      · exact .text _
      · exact .ref (v := "h.org".toList) (by decide) (by decide) rfl (interp_plain (by decide) 8)
      · exact .text _) rfl

/-- **C111 is false of the code for `%`**: a secret with a `%` (which rclone reads as it is) in the section of any remote makes all remotes
unusable. -/
theorem C111_violated_percent (lower : Str → Str) (ini : Ini) (other : Str) (opts : List (Str × Str)) (hm : (other, opts) ∈ ini.sections) (a b : Str)
    (hs : opts.lookup "secret_access_key".toList = some (a ++ '%' :: b)) (ha : '%' ∉ a) (hb : ∀ c, b.head? = some c → c ≠ '%' ∧ c ≠ '(') (r : Str) :
    remoteArgs lower ini r = none := by
  have h1 : readEntry lower ini opts = none := by
    have hg : iniGet lower ini opts "secret_access_key".toList = none := by
      unfold iniGet rawGet
      rw [hs]
      show (interpText _ _ _).map some = _
      rw [interpText_bad ha hb]
      rfl
    unfold readEntry
    rw [hg]
    cases iniGet lower ini opts "type".toList <;> cases iniGet lower ini opts "provider".toList <;>
      cases iniGet lower ini opts "access_key_id".toList <;> rfl
  have h2 : ∀ l : List (Str × List (Str × Str)), (other, opts) ∈ l → readEntries lower ini l = none := by
    intro l
    induction l with
    | nil => intro h; cases h
    | cons s l ih =>
      intro h
      obtain ⟨name, opts'⟩ := s
      simp only [readEntries]
      rcases List.mem_cons.1 h with e | h
      · cases e; rw [h1]
      · rw [ih h]; cases readEntry lower ini opts' <;> rfl
  unfold remoteArgs
  rw [h2 _ hm]

/-- **C111 is false of the code for endpoints whose name starts with `http`** -/
theorem C111_violated_http : ¬ HasScheme "httpstore.example.com".toList ∧
    endpointUrl (some "httpstore.example.com".toList) = some "httpstore.example.com".toList := by
  refine ⟨?_, by decide⟩
  rintro ⟨rest, h | h⟩
  · have := congrArg (fun l => l[4]?) h; revert this; simp
  · have := congrArg (fun l => l[5]?) h; revert this; simp

/-! ## The accesses -/

variable {remote : Str → Option Args}

/-- The object has the connection of its remote; the number of the process of a connection is the one `os.getpid()` returned there. -/
def Obj.Ok (remote : Str → Option Args) (pids : List Nat) (o : Obj) : Prop :=
  match o.path.fs with
  | .loc => o.conn = none ∧ o.args = none
  | .rclone r => ∃ a p, remote r = some a ∧ o.args = some a ∧ o.conn = some ⟨p, a⟩ ∧ pids[p.id]? = some p.pid

def Request.Ok (remote : Str → Option Args) (q : Request) : Prop :=
  q.names = q.url.inside ∧
  match q.url.fs with
  | .loc => q.conn = none
  | .rclone r => ∃ a, remote r = some a ∧ q.conn = some ⟨q.by_, a⟩

theorem Obj.Ok.mono {pids : List Nat} {o : Obj} (h : o.Ok remote pids) (n : Nat) : o.Ok remote (pids ++ [n]) := by
  unfold Obj.Ok at h ⊢
  cases hf : o.path.fs with
  | loc => rw [hf] at h; exact h
  | rclone r =>
    rw [hf] at h
    obtain ⟨a, p, h1, h2, h3, h4⟩ := h
    exact ⟨a, p, h1, h2, h3, by rw [List.getElem?_append_left (List.getElem?_eq_some_iff.1 h4).1]; exact h4⟩

theorem Obj.Ok.path {pids : List Nat} {o : Obj} (h : o.Ok remote pids) (p : EPath) (hp : p.fs = o.path.fs) : Obj.Ok remote pids { o with path := p } := by
  unfold Obj.Ok at h ⊢
  dsimp only
  rw [hp]
  exact h

theorem make_ok {pids : List Nat} {me : Proc} {s : Str} {o : Obj} (h : Obj.make remote me s = some o) (hme : pids[me.id]? = some me.pid) : o.Ok remote pids := by
  unfold Obj.make at h
  cases he : EPath.ofStr s with
  | none => rw [he] at h; cases h
  | some p =>
    rw [he] at h
    dsimp only at h
    cases hf : p.fs with
    | loc =>
      rw [hf] at h
      cases h
      unfold Obj.Ok
      dsimp only
      rw [hf]
      exact ⟨rfl, rfl⟩
    | rclone r =>
      rw [hf] at h
      dsimp only at h
      cases hr : remote r with
      | none => rw [hr] at h; cases h
      | some a =>
        rw [hr] at h
        cases h
        unfold Obj.Ok
        dsimp only
        rw [hf]
        exact ⟨a, me, hr, rfl, rfl, hme⟩

theorem derive_ok {pids : List Nat} {me : Proc} {o o' : Obj} {d : Derive} (ho : o.Ok remote pids) (h : o.derive remote me d = some o')
    (hme : pids[me.id]? = some me.pid) : o'.Ok remote pids := by
  cases d with
  | parent => cases h; exact ho.path _ rfl
  | suffix s => cases h; exact ho.path _ rfl
  | found names => cases h; exact ho.path _ rfl
  | div s =>
    simp only [Obj.derive] at h
    cases hb : Obj.make remote me s with
    | none => rw [hb] at h; cases h
    | some b =>
      rw [hb] at h
      dsimp only at h
      cases hd : o.path.div b.path with
      | none => rw [hd] at h; cases h
      | some p =>
        rw [hd] at h
        dsimp only at h
        split at h
        · cases h; exact make_ok hb hme
        · rename_i habs
          cases h
          refine ho.path _ ?_
          unfold EPath.div at hd
          split at hd
          · cases hd
          · cases hr : resolve (o.path.path.join b.path.path) with
            | none => rw [hr] at hd; cases hd
            | some q => rw [hr] at hd; cases hd; rfl

theorem guard_ok {pids : List Nat} {me : Proc} {o o' : Obj} (ho : o.Ok remote pids) (h : o.guard me = some o') (hme : pids[me.id]? = some me.pid)
    (hn : pids.Nodup) : o'.Ok remote pids ∧ o'.path = o.path ∧ Request.Ok remote ⟨me, o'.path, o'.conn, o'.path.inside⟩ := by
  unfold Obj.Ok at ho
  unfold Obj.guard at h
  cases hf : o.path.fs with
  | loc =>
    rw [hf] at ho
    rw [ho.1] at h
    cases h
    refine ⟨?_, rfl, rfl, ?_⟩
    · unfold Obj.Ok; rw [hf]; exact ho
    · dsimp only; rw [hf]; exact ho.1
  | rclone r =>
    rw [hf] at ho
    obtain ⟨a, p, h1, h2, h3, h4⟩ := ho
    rw [h3] at h
    dsimp only at h
    split at h
    · rw [h2] at h
      cases h
      refine ⟨?_, rfl, rfl, ?_⟩
      · unfold Obj.Ok; dsimp only; rw [hf]; exact ⟨a, me, h1, rfl, rfl, hme⟩
      · dsimp only; rw [hf]; exact ⟨a, h1, rfl⟩
    · rename_i hp
      cases h
      have hpid : p.pid = me.pid := Decidable.not_not.1 hp
      have hid : p.id = me.id := by
        obtain ⟨l1, e1⟩ := List.getElem?_eq_some_iff.1 h4
        obtain ⟨l2, e2⟩ := List.getElem?_eq_some_iff.1 hme
        exact (List.getElem_inj hn).1 (by rw [e1, e2, hpid])
      have hpm : p = me := by
        obtain ⟨i, q⟩ := p
        obtain ⟨i', q'⟩ := me
        cases hid; cases hpid; rfl
      refine ⟨?_, rfl, rfl, ?_⟩
      · unfold Obj.Ok; rw [hf]; exact ⟨a, p, h1, h2, h3, h4⟩
      · dsimp only; rw [hf]; exact ⟨a, h1, by rw [h3, hpm]⟩

/-- The state of all processes -/
structure World.Ok (remote : Str → Option Args) (w : World) : Prop where
  objs : ∀ p, ∀ o ∈ w.objs p, o.Ok remote w.pids
  log : ∀ q ∈ w.log, q.Ok remote

theorem step_pids (w : World) (e : Event) : w.pids <+: (w.step remote e).pids := by
  unfold World.step
  cases hp : w.pids[e.proc]? with
  | none => exact List.prefix_refl _
  | some pid =>
    dsimp only
    cases e with
    | make p s => simp only [World.act, World.push]; split <;> exact List.prefix_refl _
    | derive p i d => simp only [World.act, World.push]; split <;> exact List.prefix_refl _
    | fork p c => exact List.prefix_append _ _
    | access p i =>
      simp only [World.act, World.access]
      split
      · split <;> exact List.prefix_refl _
      · exact List.prefix_refl _

theorem push_ok {w : World} (h : w.Ok remote) {p : Nat} {o : Option Obj} (ho : ∀ x, o = some x → x.Ok remote w.pids) : (w.push p o).Ok remote := by
  unfold World.push
  cases o with
  | none => exact h
  | some o =>
    refine ⟨?_, h.log⟩
    intro p' x hx
    simp only [World.setObjs] at hx
    split at hx
    · rcases List.mem_append.1 hx with hx | hx
      · exact h.objs p x hx
      · cases List.mem_singleton.1 hx; exact ho _ rfl
    · exact h.objs p' x hx

theorem step_ok {w : World} (h : w.Ok remote) (e : Event) (hn : w.pids.Nodup) : (w.step remote e).Ok remote := by
  unfold World.step
  cases hp : w.pids[e.proc]? with
  | none => exact h
  | some pid =>
    dsimp only
    cases e with
    | make p s => exact push_ok h fun x hx => make_ok hx hp
    | derive p i d =>
      refine push_ok h fun x hx => ?_
      cases ho : (w.objs p)[i]? with
      | none => rw [show (w.objs (Event.derive p i d).proc)[i]? = none from ho] at hx; cases hx
      | some o =>
        rw [show (w.objs (Event.derive p i d).proc)[i]? = some o from ho] at hx
        exact derive_ok (h.objs p o (List.mem_of_getElem? ho)) hx hp
    | fork p c =>
      refine ⟨?_, h.log⟩
      intro p' x hx
      have hx' : x ∈ w.objs p ∨ x ∈ w.objs p' := by
        simp only [World.act, World.setObjs, Event.proc] at hx
        split at hx
        · exact .inl hx
        · exact .inr hx
      rcases hx' with hx | hx
      · exact (h.objs _ x hx).mono c
      · exact (h.objs _ x hx).mono c
    | access p i =>
      simp only [World.act, World.access, Event.proc]
      cases ho : (w.objs p)[i]? with
      | none => exact h
      | some o =>
        dsimp only
        have hoo := h.objs p o (List.mem_of_getElem? ho)
        cases hg : o.guard ⟨p, pid⟩ with
        | none => exact h
        | some o' =>
          obtain ⟨h1, _, h3⟩ := guard_ok hoo hg hp hn
          refine ⟨?_, ?_⟩
          · intro p' x hx
            simp only [World.setObjs] at hx
            split at hx
            · rcases List.mem_or_eq_of_mem_set hx with hx | rfl
              · exact h.objs p x hx
              · exact h1
            · exact h.objs p' x hx
          · intro q hq
            rcases List.mem_cons.1 hq with rfl | hq
            · exact h3
            · exact h.log q hq

theorem run_pids (w : World) (es : List Event) : w.pids <+: (w.run remote es).pids := by
  induction es generalizing w with
  | nil => exact List.prefix_refl _
  | cons e es ih => exact (step_pids w e).trans (ih _)

theorem run_ok {w : World} (h : w.Ok remote) (es : List Event) (hn : (w.run remote es).pids.Nodup) : (w.run remote es).Ok remote := by
  induction es generalizing w with
  | nil => exact h
  | cons e es ih =>
    have h1 := run_pids (remote := remote) (w.step remote e) es
    have hn1 : (w.step remote e).pids.Nodup := hn.sublist h1.sublist
    exact ih (step_ok h e (hn1.sublist (step_pids w e).sublist)) hn

/-- **C111, every access**: in any history of creating paths, deriving paths from others, forking processes and accessing files, each access to a path of a
remote uses a connection made in the process itself (never one of its parent), with the arguments of the remote the path was made for, and asks for the
path below the remote; local paths use no connection. The numbers the operating system gives to processes are different
(`C111_violated_reuse`). -/
theorem C111_every_access (remote : Str → Option Args) (pid : Nat) (es : List Event) (hn : ((World.start pid).run remote es).pids.Nodup) (q : Request)
    (hq : q ∈ ((World.start pid).run remote es).log) :
    (q.url.fs = .loc → q.conn = none ∧ q.names = q.url.path.names) ∧
    ∀ r, q.url.fs = .rclone r → ∃ a, remote r = some a ∧ q.conn = some ⟨q.by_, a⟩ ∧
      (q.url.Consistent → q.url.path.names = r :: q.names) := by
  have h0 : (World.start pid).Ok remote := ⟨fun p o ho => (by cases ho), fun q hq => (by cases hq)⟩
  obtain ⟨h1, h2⟩ := (run_ok h0 es hn).log q hq
  refine ⟨?_, ?_⟩
  · intro hf
    rw [hf] at h2
    refine ⟨h2, ?_⟩
    rw [h1]
    unfold EPath.inside
    rw [hf]
  · intro r hf
    rw [hf] at h2
    obtain ⟨a, ha, hc⟩ := h2
    refine ⟨a, ha, hc, ?_⟩
    intro hcon
    unfold EPath.Consistent at hcon
    rw [hf] at hcon
    rw [h1]
    unfold EPath.inside
    rw [hf]
    obtain ⟨_, hh⟩ := hcon
    cases hl : q.url.path.names with
    | nil => rw [hl] at hh; cases hh
    | cons x l => rw [hl] at hh; cases hh; rfl

/-- **C111, no access is refused**: each access of a process to one of its paths reaches the file system. -/
theorem C111_access_happens (remote : Str → Option Args) (pid : Nat) (es : List Event) (hn : ((World.start pid).run remote es).pids.Nodup) (p i : Nat) (n : Nat) (o : Obj)
    (hp : ((World.start pid).run remote es).pids[p]? = some n) (ho : (((World.start pid).run remote es).objs p)[i]? = some o) :
    ∃ q, ((World.start pid).run remote (es ++ [.access p i])).log = q :: ((World.start pid).run remote es).log ∧ q.by_ = ⟨p, n⟩ ∧ q.url = o.path := by
  have h0 : (World.start pid).Ok remote := ⟨fun p o ho => (by cases ho), fun q hq => (by cases hq)⟩
  have hoo := (run_ok h0 es hn).objs p o (List.mem_of_getElem? ho)
  have hrun : (World.start pid).run remote (es ++ [.access p i]) = ((World.start pid).run remote es).step remote (.access p i) := by
    unfold World.run; rw [List.foldl_append]; rfl
  have hg : ∃ o', o.guard ⟨p, n⟩ = some o' := by
    unfold Obj.Ok at hoo
    unfold Obj.guard
    cases hf : o.path.fs with
    | loc => rw [hf] at hoo; rw [hoo.1]; exact ⟨_, rfl⟩
    | rclone r =>
      rw [hf] at hoo
      obtain ⟨a, c, _, h2, h3, _⟩ := hoo
      rw [h3, h2]
      dsimp only
      split
      · exact ⟨_, rfl⟩
      · exact ⟨_, rfl⟩
  obtain ⟨o', hg⟩ := hg
  have hpath := (guard_ok hoo hg hp hn).2.1
  refine ⟨⟨⟨p, n⟩, o'.path, o'.conn, o'.path.inside⟩, ?_, rfl, hpath⟩
  rw [hrun]
  unfold World.step
  rw [show ((World.start pid).run remote es).pids[(Event.access p i).proc]? = some n from hp]
  simp only [World.act, World.access, Event.proc, ho, hg]

/-! ## Examples and violations -/

def exIni : Ini := ⟨[("coolstore".toList, [("type".toList, "s3".toList), ("provider".toList, "Other".toList), ("access_key_id".toList, "K".toList),
  ("secret_access_key".toList, "S".toList), ("region".toList, "us-east-1".toList), ("endpoint".toList, "pdx.s8k.io".toList)]),
  ("box".toList, [("type".toList, "dropbox".toList)])], []⟩

/-- The example of docs/source/remote_dataset.md -/
example : (exIni.sections.map (·.1)).Nodup ∧ exIni.NoPercent ∧
    remoteArgs id exIni "coolstore".toList = some ⟨some "K".toList, some "S".toList, some "https://pdx.s8k.io".toList, some "us-east-1".toList⟩ ∧
    remoteArgs id exIni "box".toList = none ∧ remoteArgs id exIni "none".toList = none := by
  refine ⟨by decide, ⟨?_, fun o h => by cases h⟩, by decide +kernel, by decide +kernel, by decide +kernel⟩
  decide

def exRemote (r : Str) : Option Args := if r = "first".toList ∨ r = "other".toList then some ⟨some r, none, none, none⟩ else none

/-- A process makes a path, a worker is forked from it, takes a path below and opens it: with a connection of its own. -/
example : (((World.start 7).run exRemote [.make 0 "rclone://first/b/x".toList, .access 0 0, .fork 0 8, .derive 1 0 (.div "y.tar".toList), .access 1 1]).log.map
      fun q => (q.by_.id, q.conn, q.names)) =
    [(1, some ⟨⟨1, 8⟩, ⟨some "first".toList, none, none, none⟩⟩, ["b".toList, "x".toList, "y.tar".toList]),
     (0, some ⟨⟨0, 7⟩, ⟨some "first".toList, none, none, none⟩⟩, ["b".toList, "x".toList])] := by decide +kernel

/-- **C111 is false of the code if the number of a process is used again**: a process that gets the number of the ended process in which the connection was made
uses this connection. -/
theorem C111_violated_reuse : (((World.start 7).run exRemote [.make 0 "rclone://first/b/x".toList, .fork 0 8, .fork 1 7, .access 2 0]).log.map
      fun q => (q.by_.id, q.conn.map (·.maker.id))) = [(2, some 0)] := by decide +kernel

/-- **C111 is false of the code above the remote**: the path with the URL `rclone://other/y` is looked up at the remote `first`, with the credentials for it. -/
theorem C111_violated_above : (((World.start 7).run exRemote [.make 0 "rclone://first/x".toList, .derive 0 0 (.div "../../other/y".toList), .access 0 1]).log.map
      fun q => (q.url.url, q.conn.map (·.args), q.names)) =
    [("rclone://other/y".toList, some ⟨some "first".toList, none, none, none⟩, ["y".toList])] := by decide +kernel

end Verif.Path
