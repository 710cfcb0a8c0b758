import Verif.Path.Model

/-!
# Properties C48, C61 and C62: paths

`Reaches d l e`: starting in the directory `d` (a list of names below the root) and following the names `l` one after another, `..`
meaning one directory up, ends in `e`. There is no step up from the root.
-/

namespace Verif.Path

/-! ## Specification -/

inductive Reaches : List Str → List Str → List Str → Prop where
  | here (d : List Str) : Reaches d [] d
  | up (d : List Str) (x : Str) (l e : List Str) : Reaches d l e → Reaches (d ++ [x]) ("..".toList :: l) e
  | down (d : List Str) (w : Str) (l e : List Str) : w ≠ "..".toList → Reaches (d ++ [w]) l e → Reaches d (w :: l) e

/-- A name as it can stand between two slashes of a path -/
def Name (w : Str) : Prop := w ≠ [] ∧ w ≠ ".".toList ∧ '/' ∉ w

/-- What every path object satisfies -/
def PPath.WF (p : PPath) : Prop := ∀ w ∈ p.names, Name w

/-- An absolute path without `..` -/
def PPath.Normal (p : PPath) : Prop := p.root = .one ∧ "..".toList ∉ p.names

/-- The path belongs to the file system of the object: the first name of a remote path is the remote the object accesses -/
def EPath.Consistent (p : EPath) : Prop :=
  match p.fs with
  | .loc => True
  | .rclone r => p.path.Normal ∧ p.path.names.head? = some r

/-! ## Resolution -/

theorem dotdot_eq : dotdot = "..".toList := rfl

theorem resolveLoop_reaches {l d e : List Str} : resolveLoop l d = some e ↔ Reaches d l e := by
  induction l generalizing d with
  | nil =>
    constructor
    · intro h; cases h; exact .here _
    · intro h; cases h; rfl
  | cons w l ih =>
    unfold resolveLoop
    by_cases hw : w = dotdot
    · subst hw
      rw [if_pos rfl]
      by_cases hd : d.length = 0
      · rw [if_pos hd]
        have : d = [] := List.length_eq_zero_iff.1 hd
        subst this
        constructor
        · intro h; cases h
        · intro h
          generalize hn : ([] : List Str) = n at h
          generalize hl : dotdot :: l = l' at h
          cases h with
          | here => cases hl
          | up d x l e h => simp at hn
          | down d w l e hw h => injection hl with h1 h2; exact absurd h1.symm hw
      · rw [if_neg hd, ih]
        have hne : d ≠ [] := fun h => hd (by rw [h]; rfl)
        constructor
        · intro h
          rw [← List.dropLast_concat_getLast hne]
          exact .up _ _ _ _ h
        · intro h
          generalize hl : dotdot :: l = l' at h
          cases h with
          | here => cases hl
          | up d x l e h => injection hl with _ h2; subst h2; simpa using h
          | down d w l e hw h => injection hl with h1 h2; exact absurd h1.symm hw
    · rw [if_neg hw, ih]
      constructor
      · intro h; exact .down _ _ _ _ hw h
      · intro h
        generalize hl : w :: l = l' at h
        cases h with
        | here => cases hl
        | up d x l e h => injection hl with h1 _; exact absurd h1 hw
        | down d w l e hw h => injection hl with h1 h2; subst h1; subst h2; exact h

theorem reaches_plain {l d : List Str} (h : dotdot ∉ l) : Reaches d l (d ++ l) := by
  induction l generalizing d with
  | nil => simpa using Reaches.here d
  | cons w l ih =>
    rw [List.mem_cons, not_or] at h
    have := ih (d := d ++ [w]) h.2
    rw [List.append_assoc] at this
    exact .down _ _ _ _ (Ne.symm h.1) this

theorem reaches_det {l d e e' : List Str} (h : Reaches d l e) (h' : Reaches d l e') : e = e' := by
  rw [← resolveLoop_reaches] at h h'
  rw [h] at h'
  exact Option.some.inj h'

theorem reaches_append {l m d e : List Str} (h : Reaches d l e) {f : List Str} : Reaches d (l ++ m) f ↔ Reaches e m f := by
  induction h with
  | here d => rfl
  | up d x l e h ih =>
    rw [← ih]
    constructor
    · intro h'
      generalize hd : d ++ [x] = d' at h'
      generalize hl : ("..".toList :: l) ++ m = l' at h'
      cases h' with
      | here => cases hl
      | up d2 x2 l2 e2 h2 =>
        injection hl with _ h3
        have := List.append_inj' hd rfl
        rw [this.1, show l ++ m = l2 from h3]; exact h2
      | down d2 w2 l2 e2 hw h2 => injection hl with h1 _; exact absurd h1.symm hw
    · intro h'; exact .up _ _ _ _ h'
  | down d w l e hw h ih =>
    rw [← ih]
    constructor
    · intro h'
      generalize hl : (w :: l) ++ m = l' at h'
      cases h' with
      | here => cases hl
      | up d2 x2 l2 e2 h2 => injection hl with h1 _; exact absurd h1 hw
      | down d2 w2 l2 e2 hw h2 => injection hl with h1 h3; subst h1; rw [List.append_eq, ] at h3; rw [h3]; exact h2
    · intro h'; exact .down _ _ _ _ hw h'

theorem reaches_nodots {l d e : List Str} (h : Reaches d l e) (hd : dotdot ∉ d) : dotdot ∉ e := by
  induction h with
  | here d => exact hd
  | up d x l e h ih => exact ih (fun hm => hd (List.mem_append_left _ hm))
  | down d w l e hw h ih =>
    refine ih (fun hm => ?_)
    rcases List.mem_append.1 hm with hm | hm
    · exact hd hm
    · rw [List.mem_singleton] at hm; exact hw hm.symm

theorem reaches_mem {l d e : List Str} (h : Reaches d l e) : ∀ w ∈ e, w ∈ d ∨ w ∈ l := by
  induction h with
  | here d => intro w hw; exact Or.inl hw
  | up d x l e h ih =>
    intro w hw
    rcases ih w hw with h1 | h1
    · exact Or.inl (List.mem_append_left _ h1)
    · exact Or.inr (List.mem_cons_of_mem _ h1)
  | down d v l e hv h ih =>
    intro w hw
    rcases ih w hw with h1 | h1
    · rcases List.mem_append.1 h1 with h1 | h1
      · exact Or.inl h1
      · rw [List.mem_singleton] at h1; rw [h1]; exact Or.inr (List.mem_cons_self ..)
    · exact Or.inr (List.mem_cons_of_mem _ h1)

theorem resolve_iff {p q : PPath} (hp : p.root = .one) : resolve p = some q ↔ q.root = .one ∧ Reaches [] p.names q.names := by
  unfold resolve
  rw [if_neg (by simp [hp])]
  by_cases hd : dotdot ∈ p.names
  · rw [if_pos hd]
    rw [Option.map_eq_some_iff]
    constructor
    · rintro ⟨l, hl, rfl⟩
      exact ⟨rfl, resolveLoop_reaches.1 hl⟩
    · rintro ⟨h1, h2⟩
      refine ⟨q.names, resolveLoop_reaches.2 h2, ?_⟩
      cases q; cases h1; rfl
  · rw [if_neg hd]
    have hr := reaches_plain (d := []) hd
    rw [List.nil_append] at hr
    constructor
    · intro h; cases h; exact ⟨hp, hr⟩
    · rintro ⟨h1, h2⟩
      have := reaches_det hr h2
      cases p; cases q; simp_all

/-- **C48** Joining: `a / b` for an absolute path `a` (with a single leading slash) and a relative path `b` leads to where following the names
of `a` and then of `b` from the root leads; the result is absolute, has no `..`, and stays on the file system of `a`. If some `..` would
leave the root there is no result, but an error. -/
theorem C48_join {a b : EPath} (ha : a.path.root = .one) (hb : b.path.root = .rel) :
    (∀ c, a.div b = some c ↔
      c.fs = a.fs ∧ c.path.root = .one ∧ Reaches [] (a.path.names ++ b.path.names) c.path.names)
    ∧ (∀ c, a.div b = some c → c.path.Normal) := by
  have key : ∀ c, a.div b = some c ↔
      c.fs = a.fs ∧ c.path.root = .one ∧ Reaches [] (a.path.names ++ b.path.names) c.path.names := by
    intro c
    unfold EPath.div
    have h1 : a.path.isAbs = true := by simp [PPath.isAbs, ha]
    have h2 : b.path.isAbs = false := by simp [PPath.isAbs, hb]
    have hj : a.path.join b.path = ⟨.one, a.path.names ++ b.path.names⟩ := by unfold PPath.join; rw [hb]; simp [ha]
    rw [h1, h2, hj]
    simp only [Bool.not_true, Bool.false_eq_true, if_false, Option.map_eq_some_iff]
    constructor
    · rintro ⟨q, hq, rfl⟩
      rw [resolve_iff rfl] at hq
      exact ⟨rfl, hq⟩
    · rintro ⟨h3, h4⟩
      refine ⟨c.path, (resolve_iff rfl).2 h4, ?_⟩
      cases c; cases h3; rfl
  refine ⟨key, fun c hc => ?_⟩
  obtain ⟨_, h2, h3⟩ := (key c).1 hc
  exact ⟨h2, reaches_nodots h3 (by simp)⟩

/-- **C48** The same for a normalised `a`: the walk starts at `a`. -/
theorem C48_from {a b : EPath} (ha : a.path.Normal) (hb : b.path.root = .rel) (c : EPath) :
    a.div b = some c ↔ c.fs = a.fs ∧ c.path.root = .one ∧ Reaches a.path.names b.path.names c.path.names := by
  rw [(C48_join ha.1 hb).1 c]
  have h := reaches_plain (d := []) (l := a.path.names) ha.2
  rw [List.nil_append] at h
  rw [reaches_append h]

/-- Number of steps up and down in a list of names -/
def ups (l : List Str) : Nat := l.countP (· = "..".toList)
def downs (l : List Str) : Nat := l.countP (· ≠ "..".toList)

theorem reaches_iff_count {l d : List Str} : (∃ e, Reaches d l e) ↔ ∀ k, ups (l.take k) ≤ d.length + downs (l.take k) := by
  induction l generalizing d with
  | nil =>
    constructor
    · intro _ k; simp [ups, downs]
    · intro _; exact ⟨d, .here d⟩
  | cons w l ih =>
    by_cases hw : w = "..".toList
    · subst hw
      constructor
      · rintro ⟨e, h⟩ k
        generalize hl : "..".toList :: l = l' at h
        cases h with
        | here => cases hl
        | up d x l e h =>
          injection hl with _ h2; subst h2
          cases k with
          | zero => simp [ups, downs]
          | succ k =>
            have := (ih (d := d)).1 ⟨e, h⟩ k
            simp [ups, downs] at this ⊢
            omega
        | down d w l e hw h => injection hl with h1 h2; exact absurd h1.symm hw
      · intro h
        have h0 := h 1
        simp [ups, downs] at h0
        have hne : d ≠ [] := by intro h; rw [h] at h0; simp at h0
        have hd := List.dropLast_concat_getLast hne
        have : ∀ k, ups (l.take k) ≤ d.dropLast.length + downs (l.take k) := by
          intro k
          have := h (k + 1)
          simp [ups, downs] at this ⊢
          omega
        obtain ⟨e, he⟩ := ih.2 this
        refine ⟨e, ?_⟩
        rw [← hd]
        exact .up _ _ _ _ he
    · have hd : ∀ k, ups ((w :: l).take (k + 1)) = ups (l.take k) ∧ downs ((w :: l).take (k + 1)) = downs (l.take k) + 1 := by
        intro k
        simp [ups, downs, List.countP_cons]
        simpa using hw
      constructor
      · rintro ⟨e, h⟩ k
        generalize hl : w :: l = l' at h
        cases h with
        | here => cases hl
        | up d x l e h => injection hl with h1 _; exact absurd h1 hw
        | down d w l e hw h =>
          injection hl with h1 h2; subst h1; subst h2
          cases k with
          | zero => simp [ups, downs]
          | succ k =>
            have := (ih (d := d ++ [_])).1 ⟨e, h⟩ k
            rw [(hd k).1, (hd k).2]
            rw [List.length_append, List.length_singleton] at this
            omega
      · intro h
        have : ∀ k, ups (l.take k) ≤ (d ++ [w]).length + downs (l.take k) := by
          intro k
          have := h (k + 1)
          rw [(hd k).1, (hd k).2] at this
          rw [List.length_append, List.length_singleton]
          omega
        obtain ⟨e, he⟩ := ih.2 this
        exact ⟨e, .down _ _ _ _ hw he⟩

/-- **C48** The error is raised exactly when at some point of the path there were more steps up than the names of `a` and the steps down
before it. -/
theorem C48_error_iff {a b : EPath} (ha : a.path.Normal) (hb : b.path.root = .rel) :
    a.div b = none ↔ ∃ k, a.path.names.length + downs (b.path.names.take k) < ups (b.path.names.take k) := by
  have h1 : (∃ c, a.div b = some c) ↔ ∃ e, Reaches a.path.names b.path.names e := by
    constructor
    · rintro ⟨c, hc⟩; exact ⟨_, ((C48_from ha hb c).1 hc).2.2⟩
    · rintro ⟨e, he⟩; exact ⟨⟨⟨.one, e⟩, a.fs⟩, (C48_from ha hb _).2 ⟨rfl, rfl, he⟩⟩
  rw [Option.eq_none_iff_forall_ne_some]
  have h2 : (∀ c, a.div b ≠ some c) ↔ ¬ ∃ c, a.div b = some c := by simp
  rw [h2, h1, reaches_iff_count]
  simp

/-- **C48** A relative path without `..` goes down: its names are appended. -/
theorem C48_down {a b : EPath} (ha : a.path.Normal) (hb : b.path.root = .rel) (hn : "..".toList ∉ b.path.names) :
    a.div b = some ⟨⟨.one, a.path.names ++ b.path.names⟩, a.fs⟩ :=
  (C48_from ha hb _).2 ⟨rfl, rfl, reaches_plain hn⟩

/-- **C48** An absolute second path is returned as it is. -/
theorem C48_absolute {a b : EPath} (ha : a.path.root ≠ .rel) (hb : b.path.root ≠ .rel) : a.div b = some b := by
  simp [EPath.div, PPath.isAbs, ha, hb]

/-- **C48** Normalising: the result of normalising is normalised, and normalising it again changes nothing. -/
theorem C48_idem {p q : PPath} (h : resolve p = some q) : q.Normal ∧ resolve q = some q := by
  have hp : p.root = .one := by
    unfold resolve at h
    by_cases hp : p.root = .one
    · exact hp
    · rw [if_pos hp] at h; cases h
  obtain ⟨h1, h2⟩ := (resolve_iff hp).1 h
  have h3 : dotdot ∉ q.names := reaches_nodots h2 (by simp)
  refine ⟨⟨h1, h3⟩, ?_⟩
  unfold resolve
  rw [if_neg (by simp [h1]), if_neg h3]

/-- **C48** Joining two relative paths one after another is joining their concatenation. -/
theorem C48_assoc {a b b' c : EPath} (ha : a.path.Normal) (hb : b.path.root = .rel) (hb' : b'.path.root = .rel)
    (h : a.div b = some c) : c.div b' = a.div ⟨b.path.join b'.path, b.fs⟩ := by
  obtain ⟨h1, h2, h3⟩ := (C48_from ha hb c).1 h
  have hc := (C48_join ha.1 hb).2 c h
  have hj : b.path.join b'.path = ⟨.rel, b.path.names ++ b'.path.names⟩ := by unfold PPath.join; rw [hb']; simp [hb]
  rw [hj]
  apply Option.ext
  intro d
  rw [C48_from hc hb' d, C48_from ha (by rfl) d, h1]
  rw [reaches_append h3]

/-- **C48** The parent of `p / name` is `p`, and `p / name / ".."` is `p`. -/
theorem C48_parent {p n : EPath} (hp : p.path.Normal) (w : Str) (hn : n.path = ⟨.rel, [w]⟩) (hw : w ≠ "..".toList) :
    ∃ c, p.div n = some c ∧ c.parent = p ∧ ∀ u : EPath, u.path = ⟨.rel, ["..".toList]⟩ → c.div u = some p := by
  have h := C48_down (a := p) (b := n) hp (by rw [hn]) (by rw [hn]; simpa using Ne.symm hw)
  rw [hn] at h
  refine ⟨_, h, ?_, ?_⟩
  · obtain ⟨⟨r, l⟩, f⟩ := p
    have : r = .one := hp.1
    subst this
    simp [EPath.parent]
  · intro u hu
    have hc := (C48_join hp.1 (by rw [hn])).2 _ h
    rw [C48_from hc (by rw [hu])]
    refine ⟨rfl, hp.1, ?_⟩
    rw [hu]
    exact .up _ _ _ _ (.here _)

theorem reaches_head {l d e : List Str} (h : Reaches d l e) : ∀ (r : Str) (d' : List Str), d = r :: d' →
    (∀ k, ups (l.take k) ≤ d'.length + downs (l.take k)) → e.head? = some r := by
  intro r d' hd hk
  subst hd
  obtain ⟨e', he'⟩ := reaches_iff_count.2 hk
  have : Reaches (r :: d') l (r :: e') := by
    clear hk h
    induction he' with
    | here d => exact .here _
    | up d x l e h ih => exact .up (r :: d) x l _ ih
    | down d w l e hw h ih => exact .down _ _ _ _ hw ih
  rw [reaches_det h this]; rfl

/-- **C48** (partial) A remote path stays within its remote as long as the relative path does not climb above the remote. Missing: climbing
above the remote is not an error, see `C48_violated_remote`. -/
theorem C48_remote_partial {a b c : EPath} (ha : a.path.Normal) (hc : a.Consistent) (hb : b.path.root = .rel)
    (h : a.div b = some c)
    (hk : ∀ k, ups (b.path.names.take k) ≤ a.inside.length + downs (b.path.names.take k)) : c.Consistent := by
  obtain ⟨h1, h2, h3⟩ := (C48_from ha hb c).1 h
  have hn := (C48_join ha.1 hb).2 c h
  unfold EPath.Consistent
  rw [h1]
  unfold EPath.Consistent at hc
  cases hf : a.fs with
  | loc => trivial
  | rclone r =>
    rw [hf] at hc
    obtain ⟨_, hr⟩ := hc
    refine ⟨hn, ?_⟩
    cases ho : a.path.names with
    | nil => rw [ho] at hr; cases hr
    | cons r' l =>
      rw [ho] at hr
      simp at hr
      subst hr
      rw [ho] at h3
      refine reaches_head h3 r' l rfl ?_
      intro k
      have := hk k
      unfold EPath.inside at this
      rw [hf, ho] at this
      simpa using this

/-! ## Parsing and printing -/

theorem splitSlash_ne (s : Str) : splitSlash s ≠ [] := by
  cases s with
  | nil => simp [splitSlash]
  | cons c s =>
    unfold splitSlash
    split
    · simp
    · split <;> simp

theorem splitSlash_noslash (s : Str) : ∀ w ∈ splitSlash s, '/' ∉ w := by
  induction s with
  | nil => simp [splitSlash]
  | cons c s ih =>
    unfold splitSlash
    split
    · intro w hw
      rcases List.mem_cons.1 hw with rfl | hw
      · simp
      · exact ih w hw
    · rename_i hc
      cases hs : splitSlash s with
      | nil => exact absurd hs (splitSlash_ne s)
      | cons v vs =>
        rw [hs] at ih
        intro w hw
        rcases List.mem_cons.1 hw with rfl | hw
        · intro hm
          rcases List.mem_cons.1 hm with h | h
          · exact hc h.symm
          · exact ih v (List.mem_cons_self ..) h
        · exact ih w (List.mem_cons_of_mem _ hw)

theorem parse_wf (s : Str) : (parse s).WF := by
  intro w hw
  simp only [parse, List.mem_filter, decide_eq_true_eq] at hw
  exact ⟨hw.2.1, hw.2.2, splitSlash_noslash s w hw.1⟩

theorem splitSlash_name {w : Str} (hw : '/' ∉ w) : splitSlash w = [w] := by
  induction w with
  | nil => rfl
  | cons c w ih =>
    rw [List.mem_cons, not_or] at hw
    unfold splitSlash
    rw [if_neg (Ne.symm hw.1), ih hw.2]

theorem splitSlash_cons {w s : Str} (hw : '/' ∉ w) : splitSlash (w ++ '/' :: s) = w :: splitSlash s := by
  induction w with
  | nil => simp [splitSlash]
  | cons c w ih =>
    rw [List.mem_cons, not_or] at hw
    rw [List.cons_append]
    conv => lhs; unfold splitSlash
    rw [if_neg (Ne.symm hw.1), ih hw.2]

theorem splitSlash_join {l : List Str} (hl : ∀ w ∈ l, Name w) (hne : l ≠ []) : splitSlash (joinNames l) = l := by
  induction l with
  | nil => exact absurd rfl hne
  | cons w l ih =>
    cases l with
    | nil => exact splitSlash_name (hl w (List.mem_cons_self ..)).2.2
    | cons v l =>
      show splitSlash (w ++ '/' :: joinNames (v :: l)) = _
      rw [splitSlash_cons (hl w (List.mem_cons_self ..)).2.2,
        ih (fun x hx => hl x (List.mem_cons_of_mem _ hx)) (by simp)]

theorem joinNames_head {l : List Str} (hl : ∀ w ∈ l, Name w) (hne : l ≠ []) : ∃ c s, joinNames l = c :: s ∧ c ≠ '/' := by
  cases l with
  | nil => exact absurd rfl hne
  | cons w l =>
    obtain ⟨h1, _, h3⟩ := hl w (List.mem_cons_self ..)
    cases w with
    | nil => exact absurd rfl h1
    | cons c w =>
      have hc : c ≠ '/' := fun h => h3 (by rw [h]; exact List.mem_cons_self ..)
      cases l with
      | nil => exact ⟨c, w, rfl, hc⟩
      | cons v l => exact ⟨c, _, rfl, hc⟩

theorem filter_names {l : List Str} (hl : ∀ w ∈ l, Name w) : l.filter (fun w => w ≠ [] ∧ w ≠ ['.']) = l := by
  rw [List.filter_eq_self]
  intro w hw
  have := hl w hw
  simp only [decide_eq_true_eq]
  exact ⟨this.1, this.2.1⟩

theorem filter_nil (l : List Str) :
    ([] :: l).filter (fun w => w ≠ [] ∧ w ≠ ['.']) = l.filter (fun w => w ≠ [] ∧ w ≠ ['.']) := by
  rw [List.filter_cons_of_neg (by simp)]

/-- Parsing the text of a path gives the path -/
theorem parse_str {p : PPath} (hp : p.WF) : parse p.str = p := by
  obtain ⟨r, l⟩ := p
  cases l with
  | nil => cases r <;> rfl
  | cons w l =>
    have hl : ∀ v ∈ w :: l, Name v := hp
    obtain ⟨c, s, hcs, hc⟩ := joinNames_head hl (by simp)
    have hs := splitSlash_join hl (by simp)
    cases r with
    | rel =>
      show parse (joinNames (w :: l)) = _
      unfold parse
      rw [hs, filter_names hl]
      congr 1
      rw [hcs]
      unfold rootOf
      split <;> simp_all
    | one =>
      show parse ('/' :: joinNames (w :: l)) = _
      unfold parse
      have : splitSlash ('/' :: joinNames (w :: l)) = [] :: (w :: l) := by
        rw [← hs]; simp [splitSlash, hs]
      rw [this, filter_nil, filter_names hl]
      congr 1
      rw [hcs]
      unfold rootOf
      split <;> simp_all
    | two =>
      show parse ('/' :: '/' :: joinNames (w :: l)) = _
      unfold parse
      have : splitSlash ('/' :: '/' :: joinNames (w :: l)) = [] :: [] :: (w :: l) := by
        rw [← hs]; simp [splitSlash, hs]
      rw [this, filter_nil, filter_nil, filter_names hl]
      congr 1
      rw [hcs]
      unfold rootOf
      split
      · simp_all
      · rfl
      · rename_i h1 h2 h3
        injection h3 with _ h4
        exact absurd h4.symm (h2 _)
      · rename_i h1 h2 h3; exact absurd rfl (h3 _)

theorem splitProtocol_some {s a b : Str} (h : splitProtocol s = some (a, b)) :
    s = a ++ ':' :: '/' :: '/' :: b ∧ a ≠ [] ∧ (∀ c ∈ a, isLower c = true) := by
  unfold splitProtocol at h
  simp only at h
  split at h
  · rename_i c rest heq
    by_cases hp : s.takeWhile isLower = []
    · rw [if_pos hp] at h; cases h
    · rw [if_neg hp] at h
      cases h
      refine ⟨?_, hp, ?_⟩
      · rw [← heq, List.takeWhile_append_dropWhile]
      · intro c hc
        have := List.all_takeWhile (p := isLower) (l := s)
        rw [List.all_eq_true] at this
        exact this c hc
  · cases h

theorem lower_noslash {a : Str} (h : ∀ c ∈ a, isLower c = true) : '/' ∉ a := by
  intro hm
  have := h _ hm
  revert this
  decide

theorem splitProtocol_str {p : PPath} (hw : p.WF) : splitProtocol p.str = none := by
  rw [Option.eq_none_iff_forall_ne_some]
  rintro ⟨a, b⟩ h
  obtain ⟨h1, h2, h3⟩ := splitProtocol_some h
  have hns := lower_noslash h3
  cases a with
  | nil => exact h2 rfl
  | cons x a =>
  have hx : x ≠ '/' := fun h => hns (by rw [h]; exact List.mem_cons_self ..)
  obtain ⟨r, l⟩ := p
  cases r with
  | one => injection h1 with h4 _; exact hx h4.symm
  | two => injection h1 with h4 _; exact hx h4.symm
  | rel =>
    cases l with
    | nil =>
      have : (['.'] : Str) = x :: (a ++ ':' :: '/' :: '/' :: b) := h1
      injection this with _ h5
      have := congrArg List.length h5
      simp at this
    | cons w l =>
      have hl : ∀ v ∈ w :: l, Name v := hw
      have hs := splitSlash_join hl (by simp)
      have e1 : joinNames (w :: l) = ((x :: a) ++ [':']) ++ '/' :: ('/' :: b) := by
        rw [show joinNames (w :: l) = PPath.str ⟨.rel, w :: l⟩ from rfl, h1]; simp
      rw [e1, splitSlash_cons (by
        rw [List.mem_append, not_or]; exact ⟨hns, by decide⟩)] at hs
      have e2 : splitSlash ('/' :: b) = [] :: splitSlash b := by simp [splitSlash]
      rw [e2] at hs
      have : ([] : Str) ∈ w :: l := by rw [← hs]; simp
      exact (hl _ this).1 rfl

/-- **C61** The text of a local path, absolute or relative, read again gives the same path. -/
theorem C61_local {p : EPath} (hw : p.path.WF) (hf : p.fs = .loc) :
    EPath.ofStr p.path.str = some p := by
  unfold EPath.ofStr
  rw [splitProtocol_str hw]
  simp only [parse_str hw]
  rw [← hf]

theorem splitProtocol_rclone {c : Char} {s : Str} :
    splitProtocol (['r', 'c', 'l', 'o', 'n', 'e', ':', '/', '/'] ++ c :: s) = some ("rclone".toList, c :: s) := by
  rfl

/-- **C61** The url of a path (absolute, belonging to its file system) read again gives the same path, on the same file system. -/
theorem C61_url {p : EPath} (hw : p.path.WF) (hc : p.Consistent) :
    EPath.ofStr p.url = some p := by
  unfold EPath.url
  cases hf : p.fs with
  | loc => exact C61_local hw hf
  | rclone r =>
    unfold EPath.Consistent at hc
    rw [hf] at hc
    obtain ⟨⟨h1, h2⟩, h3⟩ := hc
    obtain ⟨⟨root, l⟩, f⟩ := p
    cases h1
    cases l with
    | nil => cases h3
    | cons w l =>
      have hwr : w = r := by simpa using h3
      have hl : ∀ v ∈ w :: l, Name v := hw
      obtain ⟨c, s, hcs, hcc⟩ := joinNames_head hl (by simp)
      show EPath.ofStr (['r', 'c', 'l', 'o', 'n', 'e', ':', '/', '/'] ++ joinNames (w :: l)) = _
      rw [hcs]
      unfold EPath.ofStr
      rw [splitProtocol_rclone]
      simp only
      rw [if_pos (by rfl), if_neg (by simpa using hcc)]
      have e : '/' :: c :: s = PPath.str ⟨.one, w :: l⟩ := by rw [← hcs]; rfl
      rw [e, parse_str hw]
      have h2' : dotdot ∉ w :: l := h2
      have e2 : resolve ⟨.one, w :: l⟩ = some ⟨.one, w :: l⟩ := by
        unfold resolve
        rw [if_neg (by simp), if_neg h2']
      rw [e2]
      simp only [hwr]
      simp at hf
      rw [hf]

/-- A text `protocol://path` -/
def HasProtocol (s proto path : Str) : Prop :=
  s = proto ++ ':' :: '/' :: '/' :: path ∧ proto ≠ [] ∧ (∀ c ∈ proto, c ∈ "abcdefghijklmnopqrstuvwxyz".toList) ∧ path ≠ []

theorem isLower_iff (c : Char) : isLower c = true ↔ c ∈ "abcdefghijklmnopqrstuvwxyz".toList := by
  constructor
  · intro h
    simp only [isLower, Bool.decide_and, Bool.and_eq_true, decide_eq_true_eq] at h
    have h1 : 97 ≤ c.toNat := h.1
    have h2 : c.toNat ≤ 122 := h.2
    have hall : ∀ n, 97 ≤ n → n ≤ 122 → Char.ofNat n ∈ "abcdefghijklmnopqrstuvwxyz".toList := by
      intro n h1 h2
      have : ∀ k < 26, Char.ofNat (97 + k) ∈ "abcdefghijklmnopqrstuvwxyz".toList := by decide +kernel
      have := this (n - 97) (by omega)
      rwa [show 97 + (n - 97) = n by omega] at this
    have := hall c.toNat h1 h2
    rwa [Char.ofNat_toNat] at this
  · intro h
    have : ∀ c ∈ "abcdefghijklmnopqrstuvwxyz".toList, isLower c = true := by decide +kernel
    exact this c h

theorem splitProtocol_iff (s a b : Str) : splitProtocol s = some (a, b) ↔ HasProtocol s a b := by
  constructor
  · intro h
    obtain ⟨h1, h2, h3⟩ := splitProtocol_some h
    refine ⟨h1, h2, fun c hc => (isLower_iff c).1 (h3 c hc), ?_⟩
    unfold splitProtocol at h
    simp only at h
    split at h
    · split at h
      · cases h
      · cases h; simp
    · cases h
  · rintro ⟨rfl, h2, h3, h4⟩
    have hl : ∀ c ∈ a, isLower c = true := fun c hc => (isLower_iff c).2 (h3 c hc)
    have hcol : isLower ':' = false := by decide
    cases b with
    | nil => exact absurd rfl h4
    | cons c b =>
      unfold splitProtocol
      rw [List.takeWhile_append_of_pos hl, List.dropWhile_append_of_pos hl]
      simp only [List.takeWhile_cons, List.dropWhile_cons, hcol, Bool.false_eq_true, if_false, List.append_nil, h2]

/-- **C61** A text `protocol://path` with any other protocol than `rclone` is refused; it is never taken for the name of a local file. Any other text is a
local path. -/
theorem C61_protocols (s : Str) :
    (∀ proto path, HasProtocol s proto path → proto ≠ "rclone".toList → EPath.ofStr s = none) ∧
      ((∀ proto path, ¬ HasProtocol s proto path) → ∃ p, EPath.ofStr s = some p ∧ p.fs = .loc) := by
  refine ⟨fun proto path h hne => ?_, fun h => ?_⟩
  · unfold EPath.ofStr
    rw [(splitProtocol_iff s proto path).2 h]
    exact if_neg hne
  · unfold EPath.ofStr
    cases hs : splitProtocol s with
    | none => exact ⟨_, rfl, rfl⟩
    | some ab => exact absurd ((splitProtocol_iff s ab.1 ab.2).1 hs) (h _ _)

example : EPath.ofStr "azure://x/y".toList = none := by decide +kernel

/-- **C61** Different paths have different urls. -/
theorem C61_injective {p q : EPath} (hp : p.path.WF) (hq : q.path.WF) (hcp : p.Consistent) (hcq : q.Consistent)
    (h : p.url = q.url) : p = q := by
  have h1 := C61_url hp hcp
  rw [h, C61_url hq hcq] at h1
  exact (Option.some.inj h1).symm

/-- What is read from a string is a path object, belonging to its file system: the hypotheses of `C61_url` hold for every path made from a
string -/
theorem ofStr_ok {s : Str} {p : EPath} (h : EPath.ofStr s = some p) : p.path.WF ∧ p.Consistent := by
  unfold EPath.ofStr at h
  split at h
  · cases h
    exact ⟨parse_wf _, trivial⟩
  · split at h
    · simp only at h
      split at h
      · cases h
      · rename_i q hq
        split at h
        · cases h
        · rename_i r l hn
          cases h
          generalize hg : parse _ = pp at hq
          have hroot : pp.root = .one := by
            refine Classical.byContradiction fun hne => ?_
            unfold resolve at hq
            rw [if_pos hne] at hq
            cases hq
          obtain ⟨h1, h2⟩ := (resolve_iff hroot).1 hq
          refine ⟨?_, ⟨h1, reaches_nodots h2 (by simp)⟩, ?_⟩
          · intro w hw
            rcases reaches_mem h2 w hw with h | h
            · cases h
            · rw [← hg] at h; exact parse_wf _ w h
          · simp [hn]
    · cases h

/-- **C61** Where a path is below another, the relative path joined to the other gives it back. -/
theorem C61_relative {p base : EPath} {s : Str} (hw : p.path.WF) (hp : p.path.Normal)
    (h : p.relativeTo base = some s) : base.divStr s = some p := by
  unfold EPath.relativeTo at h
  split at h
  · cases h
  · split at h
    · cases h
    · rename_i hfs
      split at h
      · rename_i hpre
        cases h
        obtain ⟨hr, t, ht⟩ := hpre
        have hd : p.path.names.drop base.path.names.length = t := by rw [← ht]; simp
        rw [hd]
        have hwt : PPath.WF ⟨.rel, t⟩ := fun w hw' => hw w (by rw [← ht]; exact List.mem_append_right _ hw')
        have e := C61_local (p := ⟨⟨.rel, t⟩, .loc⟩) hwt rfl
        unfold EPath.divStr
        rw [e]
        have hdd : dotdot ∉ p.path.names := hp.2
        rw [← ht, List.mem_append, not_or] at hdd
        show base.div ⟨⟨.rel, t⟩, .loc⟩ = some p
        rw [C48_down (b := ⟨⟨.rel, t⟩, .loc⟩) ⟨by rw [← hr]; exact hp.1, hdd.1⟩ rfl hdd.2]
        simp only [ht]
        have hfs : p.fs = base.fs := by simpa using hfs
        rw [← hfs]
        obtain ⟨⟨r, l⟩, f⟩ := p
        cases hp.1
        rfl
      · cases h

/-- **C61** … and it is defined exactly for paths below the other one, on the same file system. -/
theorem C61_relative_iff {p base : EPath} (hp : p.path.Normal) (hb : base.path.Normal) :
    (p.relativeTo base).isSome ↔ p.fs = base.fs ∧ ∃ t, p.path.names = base.path.names ++ t := by
  unfold EPath.relativeTo
  have h1 : p.path.isAbs = true := by simp [PPath.isAbs, hp.1]
  have h2 : base.path.isAbs = true := by simp [PPath.isAbs, hb.1]
  rw [h1, h2, hp.1, hb.1]
  by_cases hf : p.fs = base.fs
  · by_cases hpre : base.path.names <+: p.path.names
    · obtain ⟨t, ht⟩ := hpre
      simp [hf, ← ht]
    · have : ¬ ∃ t, p.path.names = base.path.names ++ t := fun ⟨t, ht⟩ => hpre ⟨t, ht.symm⟩
      simp [hf, hpre, this]
  · simp [hf]

/-! ## Index files -/

theorem suffixOf_stem {stem suf : Str} (h1 : stem ≠ []) (h2 : suf ≠ []) (h3 : '.' ∉ suf) :
    suffixOf (stem ++ '.' :: suf) = (stem, '.' :: suf) := by
  have hr : (stem ++ '.' :: suf).reverse = suf.reverse ++ '.' :: stem.reverse := by simp
  have ht : ∀ c ∈ suf.reverse, (decide (c ≠ '.')) = true := by
    intro c hc
    rw [List.mem_reverse] at hc
    simp only [decide_eq_true_eq]
    intro h; exact h3 (h ▸ hc)
  have e1 : (suf.reverse ++ '.' :: stem.reverse).dropWhile (· ≠ '.') = '.' :: stem.reverse := by
    rw [List.dropWhile_append_of_pos ht]; simp
  have e2 : (suf.reverse ++ '.' :: stem.reverse).takeWhile (· ≠ '.') = suf.reverse := by
    rw [List.takeWhile_append_of_pos ht]; simp
  unfold suffixOf lastSuffix
  rw [hr, e1, e2]
  simp [h1, h2]

/-- **C62** (partial) Shards named `….tar` in one directory have different index files, which are not themselves shards; the temporary name used
while writing an index is different from the names of all shards and index files. Missing: shards with other suffixes, see
`C62_violated`. -/
theorem C62_index_partial {a b : Str} (ha : a ≠ []) (hb : b ≠ []) :
    (indexName (a ++ ".tar".toList) = indexName (b ++ ".tar".toList) → a = b)
    ∧ indexName (a ++ ".tar".toList) = a ++ ".tar.idx".toList
    ∧ indexName (a ++ ".tar".toList) ≠ b ++ ".tar".toList
    ∧ indexTmpName (a ++ ".tar".toList) ≠ b ++ ".tar".toList
    ∧ indexTmpName (a ++ ".tar".toList) ≠ indexName (b ++ ".tar".toList)
    ∧ (indexTmpName (a ++ ".tar".toList) = indexTmpName (b ++ ".tar".toList) → a = b) := by
  have e : ∀ x : Str, x ≠ [] → suffixOf (x ++ ".tar".toList) = (x, ".tar".toList) := fun x hx =>
    suffixOf_stem hx (by decide) (by decide)
  unfold indexName indexTmpName withSuffix
  rw [e a ha, e b hb]
  have last : ∀ (x y s t : Str), x ++ s = y ++ t → s.getLast? = t.getLast? ∨ s = [] ∨ t = [] := by
    intro x y s t h
    by_cases hs : s = []
    · exact Or.inr (Or.inl hs)
    · by_cases ht : t = []
      · exact Or.inr (Or.inr ht)
      · left
        have := congrArg List.getLast? h
        rw [List.getLast?_append, List.getLast?_append] at this
        cases h1 : s.getLast? with
        | none => rw [List.getLast?_eq_none_iff] at h1; exact absurd h1 hs
        | some u =>
          cases h2 : t.getLast? with
          | none => rw [List.getLast?_eq_none_iff] at h2; exact absurd h2 ht
          | some v => rw [h1, h2] at this; simpa using this
  refine ⟨fun h => List.append_cancel_right h, rfl, fun h => ?_, fun h => ?_, fun h => ?_, fun h => List.append_cancel_right h⟩
  · have := last _ _ _ _ h; revert this; decide
  · have := last _ _ _ _ h; revert this; decide
  · have := last _ _ _ _ h; revert this; decide

/-! ## Violations and examples -/

/-- **C48** is violated for remote paths: climbing above the remote is no error, and the result has the name of another remote, while files
are still looked up on the first one. Its url leads to a different file system. -/
theorem C48_violated_remote :
    ∃ a c : EPath, EPath.ofStr "rclone://first/x".toList = some a
      ∧ a.divStr "../../other/y".toList = some c
      ∧ c.fs = .rclone "first".toList ∧ c.inside = ["y".toList]
      ∧ c.url = "rclone://other/y".toList
      ∧ EPath.ofStr c.url ≠ some c := by
  refine ⟨⟨⟨.one, ["first".toList, "x".toList]⟩, .rclone "first".toList⟩,
    ⟨⟨.one, ["other".toList, "y".toList]⟩, .rclone "first".toList⟩, ?_⟩
  decide +kernel

/-- **C48** is violated for absolute paths with two leading slashes: nothing can be joined to them. -/
theorem C48_violated_double :
    ∃ a : EPath, EPath.ofStr "//data/x".toList = some a ∧ a.path.isAbs = true ∧ a.divStr "y".toList = none := by
  refine ⟨⟨⟨.two, ["data".toList, "x".toList]⟩, .loc⟩, ?_⟩
  decide +kernel

/-- **C62** is violated for shards `x.tar` and `x.tgz`, which the preparation both collects (tools/prepare.py:155): they share the index. -/
theorem C62_violated : indexName "x.tar".toList = indexName "x.tgz".toList ∧ "x.tar".toList ≠ "x.tgz".toList := by
  decide +kernel

/-- **C62** is violated for a shard named `.tar` (a hidden file, which the pattern `**/*.tar` matches): it shares its index with `.tar.tar`. -/
theorem C62_violated_hidden : indexName ".tar".toList = indexName ".tar.tar".toList ∧ indexTmpName ".tar".toList = indexTmpName ".tar.tar".toList := by
  decide +kernel

/-- The hypotheses of the theorems hold for a concrete remote path -/
example :
    ∃ a c : EPath, EPath.ofStr "rclone://r/a//b/./c/../d".toList = some a ∧ a.path.Normal ∧ a.Consistent ∧ a.path.WF
      ∧ a.path.names = ["r".toList, "a".toList, "b".toList, "d".toList]
      ∧ a.divStr "../../e".toList = some c ∧ c.url = "rclone://r/a/e".toList ∧ c.Consistent
      ∧ a.divStr "../../../../../e".toList = none
      ∧ c.relativeTo a.parent.parent = some "e".toList := by
  refine ⟨⟨⟨.one, ["r".toList, "a".toList, "b".toList, "d".toList]⟩, .rclone "r".toList⟩,
    ⟨⟨.one, ["r".toList, "a".toList, "e".toList]⟩, .rclone "r".toList⟩, ?_⟩
  have h1 : EPath.ofStr "rclone://r/a//b/./c/../d".toList
      = some ⟨⟨.one, ["r".toList, "a".toList, "b".toList, "d".toList]⟩, .rclone "r".toList⟩ := by decide +kernel
  have h2 : EPath.ofStr "rclone://r/a/e".toList
      = some ⟨⟨.one, ["r".toList, "a".toList, "e".toList]⟩, .rclone "r".toList⟩ := by decide +kernel
  refine ⟨h1, ⟨rfl, by decide⟩, (ofStr_ok h1).2, (ofStr_ok h1).1, rfl, ?_, ?_, (ofStr_ok h2).2, ?_, ?_⟩
  all_goals decide +kernel

end Verif.Path
