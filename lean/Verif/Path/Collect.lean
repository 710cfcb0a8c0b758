import Mathlib.Data.List.Lex
import Mathlib.Data.List.Sort
import Mathlib.Data.List.Infix
import Verif.Path.Props

/-!
# C106: which files `energon prepare` takes

The search for tar files below the directory of the dataset (tools/prepare.py:144-160, epath.py:256-277) and how they are then addressed (flavors/webdataset/prepare.py:189, 57-65).
-/

namespace Verif.Path

/-! ### Model -/

/-- One character of a shell pattern (Python's `fnmatch`): itself, `?`, `*` or `[…]`, `[!…]` with ranges. -/
inductive Pat where
  | lit (c : Char)
  | one
  | many
  | set (neg : Bool) (ranges : List (Char × Char))
deriving DecidableEq, Repr

/-- The ranges between the brackets. -/
def ranges : Str → List (Char × Char)
  | a :: '-' :: b :: s => (a, b) :: ranges s
  | a :: s => (a, a) :: ranges s
  | [] => []

/-- The contents of brackets up to the closing one: the first character may be `]` itself. -/
def closeSet : Str → Option (Str × Str)
  | ']' :: s => (go s).map fun p => (']' :: p.1, p.2)
  | s => go s
where
  go : Str → Option (Str × Str)
    | [] => none
    | ']' :: s => some ([], s)
    | c :: s => (go s).map fun p => (c :: p.1, p.2)

/-- The pattern for one name (fsspec `glob_translate`, which follows `fnmatch.translate`). An opening bracket without a closing one stands for itself. The first argument bounds the length of the text. -/
def parsePat : Nat → Str → List Pat
  | 0, _ => []
  | _, [] => []
  | n + 1, '*' :: s => .many :: parsePat n s
  | n + 1, '?' :: s => .one :: parsePat n s
  | n + 1, '[' :: s =>
    match (match s with | '!' :: s' => (closeSet s').map fun p => (true, p) | _ => (closeSet s).map fun p => (false, p)) with
    | some (neg, body, rest) => .set neg (ranges body) :: parsePat n rest
    | none => .lit '[' :: parsePat n s
  | n + 1, c :: s => .lit c :: parsePat n s

/-- Does the name match? -/
def matchPat : List Pat → Str → Bool
  | [], s => s.isEmpty
  | .many :: ps, s => s.tails.any (matchPat ps)
  | .one :: ps, s => match s with | [] => false | _ :: t => matchPat ps t
  | .lit c :: ps, s => match s with | [] => false | d :: t => decide (c = d) && matchPat ps t
  | .set neg rs :: ps, s => match s with | [] => false | d :: t => (neg != rs.any fun r => decide (r.1 ≤ d ∧ d ≤ r.2)) && matchPat ps t

/-- One name of a pattern: `**` stands for any number of names. -/
inductive Seg where
  | any
  | name (ps : List Pat)
deriving DecidableEq, Repr

def isInfixB (a : Str) (s : Str) : Bool := s.tails.any fun t => a.isPrefixOf t

/-- fsspec `glob_translate`; `none`: `ValueError` (`**` as part of a name) -/
def parseSeg (w : Str) : Option Seg :=
  if w = ['*', '*'] then some .any
  else if isInfixB ['*', '*'] w then none
  else some (.name (parsePat w.length w))

def matchSegs : List Seg → List Str → Bool
  | [], l => l.isEmpty
  | .any :: ss, l => l.tails.any (matchSegs ss)
  | .name ps :: ss, l => match l with | [] => false | w :: t => matchPat ps w && matchSegs ss t

/-- `fs.glob`: the paths of the file system, files and directories, that match the pattern. (In the order of the file system; the caller sorts. fsspec looks only below the longest prefix without special characters, which is where all
matches are.) -/
def fsGlob (fs : List (List Str)) (pattern : List Str) : Option (List (List Str)) :=
  (pattern.mapM parseSeg).map fun segs => fs.filter (matchSegs segs)

/-- epath.py:256-277 `EPath.glob`: the pattern is joined to the path, so the path is part of it. `fs` are the paths of the file system, without remote name. (`_resolve` does nothing: what a file system lists contains no `..`.) -/
def EPath.glob (fs : List (List Str)) (p : EPath) (pattern : Str) : Option (List EPath) :=
  match p.divStr pattern with
  | none => none
  | some q =>
    match fsGlob fs q.inside with
    | none => none
    | some found => some (found.map fun l => { p with path := ⟨.one, match p.fs with | .loc => l | .rclone r => r :: l⟩ })

/-- How `pathlib` compares paths (epath.py:344-352): name by name, each by code points. -/
def EPath.sortKey (p : EPath) : List (List Nat) := p.path.names.map (·.map Char.toNat)

def sortPaths (l : List EPath) : List EPath := l.insertionSort fun a b => a.sortKey ≤ b.sortKey

/-- tools/prepare.py:155-160: the tar files, relative to the directory of the dataset; `excluded` is the search for the regular expression of `--exclude`. `none`: an exception. -/
def collectTars (fs : List (List Str)) (p : EPath) (excluded : Str → Bool) : Option (List Str) :=
  match p.glob fs "**/*.tar".toList, p.glob fs "**/*.tgz".toList with
  | some a, some b => ((sortPaths (a ++ b)).mapM fun q : EPath => q.relativeTo p).map fun l => l.filter fun s => !excluded s
  | _, _ => none

/-- flavors/webdataset/prepare.py:189, 57-65: the files opened for the list of tar files, `expand` is `braceexpand`. -/
def shardFiles (expand : Str → List Str) (p : EPath) (tars : List Str) : List (Str × Option EPath) :=
  (tars.flatMap expand).map fun s => (s, p.divStr s)

/-- tools/prepare.py:144-148, 158-160 with `--tar-index-only`: the shards of the existing `.info.yaml` -/
def indexTars (info : List Str) (excluded : Str → Bool) : List Str := info.filter fun s => !excluded s

/-- flavors/webdataset/itar.py:150-154: loading refuses files with the header of gzip (which the preparation reads: mode `r:*`, prepare.py:72). -/
def itarRefuses (bytes : List Nat) : Bool := bytes.take 3 = [0x1f, 0x8b, 0x08]

/-! ### Specification -/

/-- The characters that mean something in patterns. -/
def magic (c : Char) : Bool := c = '*' || c = '?' || c = '['

/-- A tar file by its name. -/
def TarName (w : Str) : Prop := ∃ stem, w = stem ++ ".tar".toList ∨ w = stem ++ ".tgz".toList

/-- The path below the directory of the dataset, as a list of names. -/
def Below (fs : List (List Str)) (p : EPath) (t : List Str) : Prop := p.inside ++ t ∈ fs

/-- A tar file below the directory of the dataset, at any depth: `d` are the directories, `w` the name. -/
def TarBelow (fs : List (List Str)) (p : EPath) (t : List Str) : Prop := Below fs p t ∧ ∃ d w, t = d ++ [w] ∧ TarName w

/-- What file systems list: absolute paths, each once, of names that can stand between slashes. -/
structure Listing (fs : List (List Str)) : Prop where
  nodup : fs.Nodup
  names : ∀ l ∈ fs, ∀ w ∈ l, Name w ∧ w ≠ "..".toList

/-- The directory of a dataset, made absolute. -/
structure EPath.Dir (p : EPath) : Prop where
  wf : p.path.WF
  normal : p.path.Normal
  consistent : p.Consistent

/-! ### Proofs -/

theorem parsePat_lit : ∀ {s : Str} {n : Nat}, s.length ≤ n → (∀ c ∈ s, magic c = false) → parsePat n s = s.map .lit := by
  intro s
  induction s with
  | nil => intro n _ _; cases n <;> rfl
  | cons c s ih =>
    intro n hn h
    cases n with
    | zero => simp at hn
    | succ n =>
      have hc := h c (by simp)
      have hs := ih (n := n) (by simpa using hn) fun d hd => h d (by simp [hd])
      rw [parsePat.eq_def]
      simp only [magic, Bool.or_eq_false_iff, decide_eq_false_iff_not] at hc
      obtain ⟨⟨h1, h2⟩, h3⟩ := hc
      split <;> simp_all

theorem matchPat_lit {s w : Str} : matchPat (s.map .lit) w = true ↔ w = s := by
  induction s generalizing w with
  | nil => cases w <;> simp [matchPat]
  | cons c s ih =>
    cases w with
    | nil => simp [matchPat]
    | cons d w =>
      simp only [List.map_cons, matchPat, Bool.and_eq_true, decide_eq_true_eq, ih, List.cons.injEq]
      constructor
      · rintro ⟨rfl, rfl⟩; exact ⟨rfl, rfl⟩
      · rintro ⟨rfl, rfl⟩; exact ⟨rfl, rfl⟩

theorem matchPat_many {s w : Str} : matchPat (.many :: s.map .lit) w = true ↔ ∃ stem, w = stem ++ s := by
  simp only [matchPat, List.any_eq_true, List.mem_tails, matchPat_lit]
  constructor
  · rintro ⟨x, ⟨t, rfl⟩, rfl⟩; exact ⟨t, rfl⟩
  · rintro ⟨t, rfl⟩; exact ⟨s, ⟨t, rfl⟩, rfl⟩

theorem parseSeg_lit {w : Str} (h : ∀ c ∈ w, magic c = false) : parseSeg w = some (.name (w.map .lit)) := by
  have h1 : '*' ∉ w := fun hm => by have := h _ hm; simp [magic] at this
  unfold parseSeg
  rw [if_neg (by rintro rfl; simp at h1), if_neg, parsePat_lit (Nat.le_refl _) h]
  simp only [isInfixB, List.any_eq_true, List.mem_tails, not_exists, not_and]
  intro t ⟨u, hu⟩ hp
  obtain ⟨v, hv⟩ := List.isPrefixOf_iff_prefix.1 hp
  apply h1
  rw [← hu, ← hv]
  simp

theorem parseSegs_lit {l : List Str} (h : ∀ w ∈ l, ∀ c ∈ w, magic c = false) {r : List Str} {segs : List Seg} (hr : r.mapM parseSeg = some segs) :
    (l ++ r).mapM parseSeg = some (l.map (fun w => .name (w.map .lit)) ++ segs) := by
  induction l with
  | nil => exact hr
  | cons w l ih =>
    rw [List.cons_append, List.mapM_cons, parseSeg_lit (h w (by simp)), ih fun v hv => h v (by simp [hv])]
    rfl

theorem matchSegs_lit {l x : List Str} {segs : List Seg} : matchSegs (l.map (fun w => .name (w.map .lit)) ++ segs) x = true ↔ ∃ t, x = l ++ t ∧ matchSegs segs t = true := by
  induction l generalizing x with
  | nil => simp
  | cons w l ih =>
    cases x with
    | nil => simp [matchSegs]
    | cons v x =>
      simp only [List.map_cons, List.cons_append, matchSegs, Bool.and_eq_true, matchPat_lit, ih, List.cons.injEq]
      constructor
      · rintro ⟨rfl, t, rfl, h⟩; exact ⟨t, ⟨rfl, rfl⟩, h⟩
      · rintro ⟨t, ⟨rfl, rfl⟩, h⟩; exact ⟨rfl, t, rfl, h⟩

theorem matchSegs_end {s : Str} {t : List Str} : matchSegs [.any, .name (.many :: s.map .lit)] t = true ↔ ∃ d w, t = d ++ [w] ∧ ∃ stem, w = stem ++ s := by
  simp only [matchSegs, List.any_eq_true, List.mem_tails]
  constructor
  · rintro ⟨x, ⟨d, rfl⟩, h⟩
    cases x with
    | nil => cases h
    | cons w x =>
      simp only [Bool.and_eq_true, matchPat_many, List.isEmpty_iff] at h
      obtain ⟨h1, rfl⟩ := h
      exact ⟨d, w, rfl, h1⟩
  · rintro ⟨d, w, rfl, h⟩
    refine ⟨[w], ⟨d, rfl⟩, ?_⟩
    simp only [Bool.and_eq_true, matchPat_many, List.isEmpty_nil, and_true]
    exact h

theorem inside_append (p : EPath) (t : List Str) (h : p.Consistent) : EPath.inside { p with path := ⟨p.path.root, p.path.names ++ t⟩ } = p.inside ++ t := by
  unfold EPath.inside
  unfold EPath.Consistent at h
  cases hf : p.fs with
  | loc => rfl
  | rclone r =>
    rw [hf] at h
    obtain ⟨_, h⟩ := h
    cases hn : p.path.names with
    | nil => rw [hn] at h; cases h
    | cons a l => rfl

/-- The full path from the path inside of the file system. -/
def EPath.full (p : EPath) (l : List Str) : EPath := { p with path := ⟨.one, match p.fs with | .loc => l | .rclone r => r :: l⟩ }

theorem full_inside {p : EPath} (h : p.Dir) (t : List Str) : p.full (p.inside ++ t) = { p with path := ⟨.one, p.path.names ++ t⟩ } := by
  unfold EPath.full EPath.inside
  have hc := h.consistent
  unfold EPath.Consistent at hc
  cases hf : p.fs with
  | loc => rfl
  | rclone r =>
    rw [hf] at hc
    obtain ⟨_, hc⟩ := hc
    cases hn : p.path.names with
    | nil => rw [hn] at hc; cases hc
    | cons a l => rw [hn] at hc; cases hc; rfl

theorem glob_eq {fs : List (List Str)} {p : EPath} (hp : p.Dir) (hm : ∀ w ∈ p.inside, ∀ c ∈ w, magic c = false) {pattern s : Str}
    (h1 : EPath.ofStr pattern = some ⟨⟨.rel, [['*', '*'], '*' :: s]⟩, .loc⟩) (h2 : parseSeg ('*' :: s) = some (.name (.many :: s.map .lit))) :
    ∃ segs, p.glob fs pattern = some ((fs.filter (matchSegs segs)).map p.full) ∧
      ∀ x, matchSegs segs x = true ↔ ∃ t, x = p.inside ++ t ∧ ∃ d w, t = d ++ [w] ∧ ∃ stem, w = stem ++ s := by
  have hd : "..".toList ∉ [['*', '*'], '*' :: s] := by simp
  have e : p.divStr pattern = some { p with path := ⟨p.path.root, p.path.names ++ [['*', '*'], '*' :: s]⟩ } := by
    unfold EPath.divStr
    rw [h1]
    show p.div _ = _
    rw [C48_down hp.normal rfl hd, hp.normal.1]
  have e2 : (p.inside ++ [['*', '*'], '*' :: s]).mapM parseSeg = some (p.inside.map (fun w => .name (w.map .lit)) ++ [.any, .name (.many :: s.map .lit)]) := by
    refine parseSegs_lit hm ?_
    have e0 : parseSeg ['*', '*'] = some .any := rfl
    rw [List.mapM_cons, List.mapM_cons, e0, h2]
    rfl
  refine ⟨p.inside.map (fun w => .name (w.map .lit)) ++ [.any, .name (.many :: s.map .lit)], ?_, fun x => ?_⟩
  · unfold EPath.glob
    rw [e]
    dsimp only
    rw [inside_append p _ hp.consistent]
    unfold fsGlob
    rw [e2]
    rfl
  · rw [matchSegs_lit]
    simp only [matchSegs_end]

theorem filter_or {α : Type} (p q : α → Bool) (l : List α) (h : ∀ a ∈ l, ¬ (p a = true ∧ q a = true)) : (l.filter p ++ l.filter q).Perm (l.filter fun a => p a || q a) := by
  induction l with
  | nil => rfl
  | cons a l ih =>
    have ih := ih fun b hb => h b (by simp [hb])
    have ha := h a (by simp)
    cases hpa : p a <;> cases hqa : q a <;> simp only [List.filter_cons, hpa, hqa, Bool.false_eq_true, if_false, if_true, Bool.or_false, Bool.or_true]
    · exact ih
    · exact List.perm_middle.trans (ih.cons a)
    · exact ih.cons a
    · simp [hpa, hqa] at ha

theorem endings {w stem stem' : Str} : w = stem ++ ".tar".toList → w = stem' ++ ".tgz".toList → False := by
  intro h1 h2
  rw [h1] at h2
  have := congrArg List.reverse h2
  simp at this

theorem mapM_some {α β : Type} {f : α → Option β} {g : α → β} {l : List α} (h : ∀ a ∈ l, f a = some (g a)) : l.mapM f = some (l.map g) := by
  induction l with
  | nil => rfl
  | cons a l ih => rw [List.mapM_cons, h a (by simp), ih fun b hb => h b (by simp [hb])]; rfl

/-- The code points of names. -/
def codes (t : List Str) : List (List Nat) := t.map (·.map Char.toNat)

theorem append_le_append {l a b : List (List Nat)} : l ++ a ≤ l ++ b ↔ a ≤ b := by
  induction l with
  | nil => rfl
  | cons x l ih =>
    rw [← not_lt, ← not_lt, not_iff_not] at ih ⊢
    rw [List.cons_append, List.cons_append, List.cons_lt_cons_iff]
    simp [ih]

theorem str_rel {t : List Str} (h : t ≠ []) : PPath.str ⟨.rel, t⟩ = joinNames t := by
  cases t with
  | nil => exact absurd rfl h
  | cons a t => rfl

theorem joinNames_inj {a b : List Str} (ha : ∀ w ∈ a, Name w) (hb : ∀ w ∈ b, Name w) (ha' : a ≠ []) (hb' : b ≠ []) (h : joinNames a = joinNames b) : a = b := by
  rw [← splitSlash_join ha ha', h, splitSlash_join hb hb']

/-! ### Theorems -/

/-- **C106.** The tar files `energon prepare` takes are exactly the ones below the directory of the dataset, at any depth, each once, in the order of their paths, without the excluded ones; and the paths it takes them by address them.
Missing: directories of datasets with `*`, `?` or `[` in their path, where it is false (`C106_violated_magic`). -/
theorem C106_collected_partial (fs : List (List Str)) (hfs : Listing fs) (p : EPath) (hp : p.Dir) (hm : ∀ w ∈ p.inside, ∀ c ∈ w, magic c = false) (excluded : Str → Bool) :
    ∃ ts : List (List Str), collectTars fs p excluded = some (ts.map joinNames) ∧
      (∀ t, t ∈ ts ↔ TarBelow fs p t ∧ excluded (joinNames t) = false) ∧
      ts.Nodup ∧ (ts.map joinNames).Nodup ∧ ts.Pairwise (fun a b => codes a ≤ codes b) ∧
      ∀ t ∈ ts, p.divStr (joinNames t) = some { p with path := ⟨.one, p.path.names ++ t⟩ } := by
  obtain ⟨sa, ha, ha'⟩ := glob_eq (fs := fs) hp hm (pattern := "**/*.tar".toList) (s := ".tar".toList) (by decide +kernel) (by decide +kernel)
  obtain ⟨sb, hb, hb'⟩ := glob_eq (fs := fs) hp hm (pattern := "**/*.tgz".toList) (s := ".tgz".toList) (by decide +kernel) (by decide +kernel)
  have hdis : ∀ x ∈ fs, ¬ (matchSegs sa x = true ∧ matchSegs sb x = true) := by
    rintro x _ ⟨h1, h2⟩
    obtain ⟨t, rfl, d, w, rfl, stem, hw⟩ := (ha' _).1 h1
    obtain ⟨t', ht', d', w', rfl, stem', hw'⟩ := (hb' _).1 h2
    have h3 := List.append_cancel_left ht'
    have h4 := (List.append_inj' h3 rfl).2
    simp only [List.cons.injEq, and_true] at h4
    exact endings hw (h4.trans hw')
  have hiff : ∀ x, (matchSegs sa x || matchSegs sb x) = true ↔ ∃ t, x = p.inside ++ t ∧ ∃ d w, t = d ++ [w] ∧ TarName w := by
    intro x
    rw [Bool.or_eq_true, ha', hb']
    constructor
    · rintro (⟨t, h1, d, w, h2, stem, h3⟩ | ⟨t, h1, d, w, h2, stem, h3⟩)
      · exact ⟨t, h1, d, w, h2, stem, .inl h3⟩
      · exact ⟨t, h1, d, w, h2, stem, .inr h3⟩
    · rintro ⟨t, h1, d, w, h2, stem, h3 | h3⟩
      · exact .inl ⟨t, h1, d, w, h2, stem, h3⟩
      · exact .inr ⟨t, h1, d, w, h2, stem, h3⟩
  generalize hL : sortPaths ((fs.filter (matchSegs sa)).map p.full ++ (fs.filter (matchSegs sb)).map p.full) = L
  have hperm : L.Perm ((fs.filter fun x => matchSegs sa x || matchSegs sb x).map p.full) := by
    rw [← hL]
    refine (List.perm_insertionSort _ _).trans ?_
    rw [← List.map_append]
    exact (filter_or _ _ _ hdis).map _
  have hfull : Function.Injective p.full := by
    intro x y h
    unfold EPath.full at h
    cases hf : p.fs with
    | loc => rw [hf] at h; simpa using h
    | rclone r => rw [hf] at h; simpa using h
  have hmem : ∀ q, q ∈ L ↔ ∃ t, TarBelow fs p t ∧ q = { p with path := ⟨.one, p.path.names ++ t⟩ } := by
    intro q
    rw [hperm.mem_iff, List.mem_map]
    constructor
    · rintro ⟨x, hx, rfl⟩
      obtain ⟨hx, hx'⟩ := List.mem_filter.1 hx
      obtain ⟨t, rfl, ht⟩ := (hiff x).1 hx'
      exact ⟨t, ⟨hx, ht⟩, full_inside hp t⟩
    · rintro ⟨t, ⟨ht, ht'⟩, rfl⟩
      exact ⟨_, List.mem_filter.2 ⟨ht, (hiff _).2 ⟨t, rfl, ht'⟩⟩, full_inside hp t⟩
  have hnames : ∀ t, TarBelow fs p t → t ≠ [] ∧ (∀ w ∈ t, Name w ∧ w ≠ "..".toList) := by
    rintro t ⟨h1, d, w, rfl, _⟩
    exact ⟨by simp, fun v hv => hfs.names _ h1 v (List.mem_append_right _ hv)⟩
  have hdrop : ∀ t : List Str, (p.path.names ++ t).drop p.path.names.length = t := fun t => by simp
  have hrel : ∀ q ∈ L, q.relativeTo p = some (joinNames (q.path.names.drop p.path.names.length)) := by
    intro q hq
    obtain ⟨t, ht, rfl⟩ := (hmem q).1 hq
    dsimp only
    rw [hdrop]
    unfold EPath.relativeTo
    have h1 : p.path.isAbs = true := by simp [PPath.isAbs, hp.normal.1]
    simp only [h1, hp.normal.1, PPath.isAbs, List.prefix_append, and_true, if_true, hdrop, str_rel (hnames t ht).1]
    simp
  have hLnd : L.Nodup := hperm.nodup_iff.2 ((hfs.nodup.filter _).map hfull)
  have hinj : ∀ q ∈ L, ∀ q' ∈ L, q.path.names.drop p.path.names.length = q'.path.names.drop p.path.names.length → q = q' := by
    intro q hq q' hq' h
    obtain ⟨t, _, rfl⟩ := (hmem q).1 hq
    obtain ⟨t', _, rfl⟩ := (hmem q').1 hq'
    dsimp only at h
    rw [hdrop, hdrop] at h
    rw [h]
  have hmem' : ∀ t, t ∈ L.map (fun q : EPath => q.path.names.drop p.path.names.length) ↔ TarBelow fs p t := by
    intro t
    rw [List.mem_map]
    constructor
    · rintro ⟨q, hq, rfl⟩
      obtain ⟨t, ht, rfl⟩ := (hmem q).1 hq
      dsimp only
      rw [hdrop]
      exact ht
    · intro ht
      exact ⟨_, (hmem _).2 ⟨t, ht, rfl⟩, hdrop t⟩
  have hnd : (L.map fun q : EPath => q.path.names.drop p.path.names.length).Nodup := List.Nodup.map_on hinj hLnd
  have hsorted : L.Pairwise fun a b => a.sortKey ≤ b.sortKey := by
    rw [← hL]
    have : Std.Total (fun a b : EPath => a.sortKey ≤ b.sortKey) := ⟨fun a b => le_total _ _⟩
    have : IsTrans EPath (fun a b : EPath => a.sortKey ≤ b.sortKey) := ⟨fun a b c => le_trans⟩
    exact List.pairwise_insertionSort _ _
  refine ⟨(L.map fun q : EPath => q.path.names.drop p.path.names.length).filter fun t => !excluded (joinNames t), ?_, ?_, hnd.filter _, ?_, ?_, ?_⟩
  · unfold collectTars
    rw [ha, hb]
    dsimp only
    rw [hL, mapM_some hrel, Option.map_some, List.filter_map, List.filter_map, List.map_map]
    rfl
  · intro t
    rw [List.mem_filter, hmem']
    simp
  · refine List.Nodup.map_on ?_ (hnd.filter _)
    intro a ha b hb h
    have h1 := hnames a ((hmem' a).1 (List.mem_filter.1 ha).1)
    have h2 := hnames b ((hmem' b).1 (List.mem_filter.1 hb).1)
    exact joinNames_inj (fun w hw => (h1.2 w hw).1) (fun w hw => (h2.2 w hw).1) h1.1 h2.1 h
  · refine List.Pairwise.filter _ ?_
    rw [List.pairwise_map]
    refine hsorted.imp_of_mem ?_
    intro a b ha hb h
    obtain ⟨t, _, rfl⟩ := (hmem a).1 ha
    obtain ⟨t', _, rfl⟩ := (hmem b).1 hb
    dsimp only
    rw [hdrop, hdrop]
    unfold EPath.sortKey at h
    dsimp only at h
    rw [List.map_append, List.map_append, append_le_append] at h
    exact h
  · intro t ht
    have h1 := hnames t ((hmem' t).1 (List.mem_filter.1 ht).1)
    unfold EPath.divStr
    rw [← str_rel h1.1, C61_local (p := ⟨⟨.rel, t⟩, .loc⟩) (fun w hw => (h1.2 w hw).1) rfl]
    show p.div _ = _
    rw [C48_down hp.normal rfl (fun hm => (h1.2 _ hm).2 rfl)]

/-- **C106**, what is opened: if no collected path is changed by `braceexpand` (as for paths without braces and backslashes), each tar file is opened, by its own path. Otherwise other files are opened: `C106_violated_braces`. -/
theorem C106_opened_partial (fs : List (List Str)) (hfs : Listing fs) (p : EPath) (hp : p.Dir) (hm : ∀ w ∈ p.inside, ∀ c ∈ w, magic c = false) (excluded : Str → Bool)
    (expand : Str → List Str) (hex : ∀ s : Str, (∀ c ∈ s, c ≠ '{' ∧ c ≠ '}' ∧ c ≠ '\\') → expand s = [s])
    (hb : ∀ t, TarBelow fs p t → ∀ w ∈ t, ∀ c ∈ w, c ≠ '{' ∧ c ≠ '}' ∧ c ≠ '\\') :
    ∃ tars, collectTars fs p excluded = some tars ∧ (shardFiles expand p tars).Nodup ∧
      ∀ s q, (s, q) ∈ shardFiles expand p tars ↔ ∃ t, TarBelow fs p t ∧ excluded (joinNames t) = false ∧ s = joinNames t ∧ q = some { p with path := ⟨.one, p.path.names ++ t⟩ } := by
  obtain ⟨ts, h1, h2, h3, h4, _, h5⟩ := C106_collected_partial fs hfs p hp hm excluded
  have hj : ∀ t : List Str, (∀ w ∈ t, ∀ c ∈ w, c ≠ '{' ∧ c ≠ '}' ∧ c ≠ '\\') → ∀ c ∈ joinNames t, c ≠ '{' ∧ c ≠ '}' ∧ c ≠ '\\' := by
    intro t
    induction t with
    | nil => intro _ c hc; cases hc
    | cons w t ih =>
      intro h c hc
      have ih := ih fun v hv => h v (by simp [hv])
      cases t with
      | nil => exact h w (by simp) c hc
      | cons v t =>
        have e : joinNames (w :: v :: t) = w ++ '/' :: joinNames (v :: t) := rfl
        rw [e, List.mem_append, List.mem_cons] at hc
        rcases hc with hc | rfl | hc
        · exact h w (by simp) c hc
        · decide
        · exact ih c hc
  have e : (ts.map joinNames).flatMap expand = ts.map joinNames := by
    have : ∀ s ∈ ts.map joinNames, expand s = [s] := by
      intro s hs
      obtain ⟨t, ht, rfl⟩ := List.mem_map.1 hs
      exact hex _ (hj t (hb t ((h2 t).1 ht).1))
    generalize ts.map joinNames = l at this
    induction l with
    | nil => rfl
    | cons a l ih => rw [List.flatMap_cons, this a (by simp), ih fun s hs => this s (by simp [hs])]; rfl
  refine ⟨_, h1, ?_, ?_⟩
  · unfold shardFiles
    rw [e]
    exact List.Nodup.map (fun a b h => (Prod.mk.inj h).1) h4
  · intro s q
    unfold shardFiles
    rw [e, List.map_map, List.mem_map]
    constructor
    · rintro ⟨t, ht, h⟩
      simp only [Function.comp_def, Prod.mk.injEq] at h
      exact ⟨t, ((h2 t).1 ht).1, ((h2 t).1 ht).2, h.1.symm, by rw [← h.2, h5 t ht]⟩
    · rintro ⟨t, ht, ht', rfl, rfl⟩
      have := (h2 t).2 ⟨ht, ht'⟩
      exact ⟨t, this, by simp only [Function.comp_def, h5 t this]⟩

/-- **C106**, `--tar-index-only`: the index is made again for exactly the shards the preparation listed (those collected which have samples, C103), with the same `--exclude`. -/
theorem C106_index_only (fs : List (List Str)) (p : EPath) (excluded : Str → Bool) (tars : List Str) (h : collectTars fs p excluded = some tars) (hasSamples : Str → Bool) :
    indexTars (tars.filter hasSamples) excluded = tars.filter hasSamples := by
  have hx : ∀ s ∈ tars, excluded s = false := by
    unfold collectTars at h
    split at h
    · obtain ⟨l, _, rfl⟩ := Option.map_eq_some_iff.1 h
      intro s hs
      simpa using (List.mem_filter.1 hs).2
    · cases h
  unfold indexTars
  rw [List.filter_eq_self]
  intro s hs
  rw [hx s (List.mem_filter.1 hs).1]
  rfl

/-! ### Examples and violations -/

def exDir (s : String) : EPath := ⟨parse s.toList, .loc⟩

def exFiles (l : List String) : List (List Str) := l.map fun s => (parse s.toList).names

/-- Files and directories of two datasets. -/
def exFs : List (List Str) := exFiles ["/d/e", "/d/e/b.tar", "/d/e/a", "/d/e/a/z.tgz", "/d/e/a/b", "/d/e/a/b/c.tar", "/d/e/b.tar.idx", "/d/e/.nv-meta", "/d/e/a-b.tar", "/d/ee", "/d/ee/x.tar", "/d/e.tar"]

theorem exFs_ok : Listing exFs where
  nodup := by decide +kernel
  names := by
    have h : ∀ l ∈ exFs, ∀ w ∈ l, w ≠ [] ∧ w ≠ ['.'] ∧ '/' ∉ w ∧ w ≠ ['.', '.'] := by decide +kernel
    intro l hl w hw
    obtain ⟨h1, h2, h3, h4⟩ := h l hl w hw
    exact ⟨⟨h1, h2, h3⟩, h4⟩

theorem exDir_ok : (exDir "/d/e").Dir where
  wf := parse_wf _
  normal := ⟨by decide +kernel, by decide +kernel⟩
  consistent := trivial

example := C106_collected_partial exFs exFs_ok (exDir "/d/e") exDir_ok (by decide +kernel) (fun s => s == "b.tar".toList)

example : collectTars exFs (exDir "/d/e") (fun s => s == "b.tar".toList) = some ["a/b/c.tar".toList, "a/z.tgz".toList, "a-b.tar".toList] := by decide +kernel

/-- On a remote. -/
example : collectTars exFs ⟨⟨.one, ["r".toList, "d".toList, "e".toList]⟩, .rclone "r".toList⟩ (fun _ => false) =
    some ["a/b/c.tar".toList, "a/z.tgz".toList, "a-b.tar".toList, "b.tar".toList] := by decide +kernel

/-- Shell patterns with brackets. -/
example : ["[a-c]x", "[!a-c]x", "[]x]x", "[ax", "a?x", "[!]]x"].map (fun q => ["ax", "bx", "cx", "dx", "]x", "[ax", "x", "abx"].filter fun w => matchPat (parsePat 9 q.toList) w.toList) =
    [["ax", "bx", "cx"], ["dx", "]x"], ["]x"], ["[ax"], ["abx"], ["ax", "bx", "cx", "dx"]] := by decide +kernel

/-- **C106 is violated** for directories whose path contains characters that mean something in patterns: in `/d/[ab]` nothing is found, although there is a tar file; and if there is `/d/a`, its tar files are found instead, which is an
exception. -/
theorem C106_violated_magic :
    (TarBelow (exFiles ["/d/[ab]/x.tar"]) (exDir "/d/[ab]") ["x.tar".toList] ∧ collectTars (exFiles ["/d/[ab]/x.tar"]) (exDir "/d/[ab]") (fun _ => false) = some []) ∧
    collectTars (exFiles ["/d/[ab]/x.tar", "/d/a/y.tar"]) (exDir "/d/[ab]") (fun _ => false) = none :=
  ⟨⟨⟨by unfold Below; decide +kernel, [], "x.tar".toList, rfl, "x".toList, .inl rfl⟩, by decide +kernel⟩, by decide +kernel⟩

/-- **C106 is violated** for names with braces: the file is collected, but other files are opened. -/
theorem C106_violated_braces (expand : Str → List Str) (h : expand "x{0,1}.tar".toList = ["x0.tar".toList, "x1.tar".toList]) :
    collectTars (exFiles ["/d/x{0,1}.tar"]) (exDir "/d") (fun _ => false) = some ["x{0,1}.tar".toList] ∧
    shardFiles expand (exDir "/d") ["x{0,1}.tar".toList] = [("x0.tar".toList, some (exDir "/d/x0.tar")), ("x1.tar".toList, some (exDir "/d/x1.tar"))] := by
  refine ⟨by decide +kernel, ?_⟩
  unfold shardFiles
  rw [List.flatMap_cons, h, List.flatMap_nil, List.append_nil]
  decide +kernel

/-- **C106 is violated** for compressed tar files: they are collected (and prepared), but loading refuses them. -/
theorem C106_violated_tgz : collectTars (exFiles ["/d/x.tgz"]) (exDir "/d") (fun _ => false) = some ["x.tgz".toList] ∧ ∀ rest, itarRefuses (0x1f :: 0x8b :: 0x08 :: rest) = true :=
  ⟨by decide +kernel, fun _ => rfl⟩

end Verif.Path
