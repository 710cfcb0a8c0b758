import Verif.Prep.CrashModel
import Verif.Prep.InfoProps

/-! # C113: an interrupted `energon prepare` is noticed -/

namespace Verif.Prep

/-! ## Texts that are cut -/

theorem pieces_line {l : Line} (h : '\n' ∉ l) (t : List Char) : pieces (l ++ '\n' :: t) = l :: pieces t := by
  induction l with
  | nil => simp [pieces]
  | cons c l ih =>
    simp only [List.mem_cons, not_or] at h
    rw [List.cons_append, pieces, if_neg (fun e => h.1 e.symm), ih h.2]

theorem pieces_single {l : Line} (h : '\n' ∉ l) : pieces l = [l] := by
  induction l with
  | nil => rfl
  | cons c l ih =>
    simp only [List.mem_cons, not_or] at h
    rw [pieces, if_neg (fun e => h.1 e.symm), ih h.2]

/-- What is left of lines when the text is cut somewhere: some lines, and possibly the begin of the next one -/
inductive CutLines : List Line → List Line → Prop
  | nil {ls} : CutLines ls []
  | begin {l ls q} : q <+: l → CutLines (l :: ls) [q]
  | cons {l ls L} : CutLines ls L → CutLines (l :: ls) (l :: L)

theorem prefix_append_cases {α : Type} {p a b : List α} (h : p <+: a ++ b) : p <+: a ∨ ∃ q, p = a ++ q ∧ q <+: b := by
  rcases List.prefix_or_prefix_of_prefix h (List.prefix_append a b) with h' | ⟨q, rfl⟩
  · exact Or.inl h'
  · exact Or.inr ⟨q, rfl, (List.prefix_append_right_inj a).1 h⟩

theorem linesOf_cut {ls : List Line} (hn : ∀ l ∈ ls, '\n' ∉ l) (hb : ∀ l ∈ ls, blankLine l = false) {p : List Char} (h : p <+: render ls) :
    CutLines ls (linesOf p) := by
  induction ls generalizing p with
  | nil =>
    obtain rfl : p = [] := List.prefix_nil.1 h
    exact .nil
  | cons l ls ih =>
    have hl := hn l (List.mem_cons_self ..)
    have e : render (l :: ls) = (l ++ ['\n']) ++ render ls := by simp [render]
    rw [e] at h
    rcases prefix_append_cases h with h' | ⟨q, rfl, hq⟩
    · rcases List.prefix_concat_iff.1 h' with rfl | h''
      · rw [linesOf, pieces_line hl, List.filter_cons, if_pos (by simp [hb l (List.mem_cons_self ..)])]
        refine .cons ?_
        have := ih (fun l h => hn l (List.mem_cons_of_mem _ h)) (fun l h => hb l (List.mem_cons_of_mem _ h)) (List.nil_prefix (l := render ls))
        exact this
      · have hp : '\n' ∉ p := fun hm => hl (h''.subset hm)
        rw [linesOf, pieces_single hp]
        by_cases hbl : blankLine p
        · simp only [List.filter_cons, hbl, Bool.not_true]
          exact .nil
        · simp only [List.filter_cons, hbl]
          exact .begin h''
    · have : l ++ ['\n'] ++ q = l ++ '\n' :: q := by simp
      rw [this, linesOf, pieces_line hl, List.filter_cons, if_pos (by simp [hb l (List.mem_cons_self ..)])]
      exact .cons (ih (fun l h => hn l (List.mem_cons_of_mem _ h)) (fun l h => hb l (List.mem_cons_of_mem _ h)) hq)

theorem linesOf_render {ls : List Line} (hn : ∀ l ∈ ls, '\n' ∉ l) (hb : ∀ l ∈ ls, blankLine l = false) : linesOf (render ls) = ls := by
  induction ls with
  | nil => rfl
  | cons l ls ih =>
    have e : render (l :: ls) = l ++ '\n' :: render ls := by simp [render]
    rw [e, linesOf, pieces_line (hn l (List.mem_cons_self ..)), List.filter_cons, if_pos (by simp [hb l (List.mem_cons_self ..)])]
    congr 1
    exact ih (fun l h => hn l (List.mem_cons_of_mem _ h)) fun l h => hb l (List.mem_cons_of_mem _ h)

/-- A proper begin of the text of a number is the text of a quotient. -/
theorem digits_prefix (c : ℕ) {p : List Char} (hp : p ≠ []) (h : p <+: Nat.toDigits 10 c) : ∃ k, Nat.ofDigitChars 10 p 0 = c / 10 ^ k ∧ (k = 0 ∨ 10 ^ k ≤ c) := by
  induction c using Nat.strong_induction_on with
  | _ c ih =>
    by_cases hc : c < 10
    · rw [Nat.toDigits_of_lt_base hc] at h
      rcases List.prefix_concat_iff.1 (show p <+: [] ++ [_] from h) with rfl | h'
      · refine ⟨0, ?_, Or.inl rfl⟩
        have := Nat.ofDigitChars_ten_toDigits (n := c)
        rw [Nat.toDigits_of_lt_base hc] at this
        simpa using this
      · exact absurd (List.prefix_nil.1 h') hp
    · have hc' : 10 ≤ c := by omega
      rw [Nat.toDigits_of_base_le (by omega) hc'] at h
      rcases List.prefix_concat_iff.1 h with rfl | h'
      · refine ⟨0, ?_, Or.inl rfl⟩
        have := Nat.ofDigitChars_ten_toDigits (n := c)
        rw [Nat.toDigits_of_base_le (by omega) hc'] at this
        simpa using this
      · obtain ⟨k, hk, hk'⟩ := ih (c / 10) (by omega) h'
        refine ⟨k + 1, ?_, Or.inr ?_⟩
        · rw [hk, Nat.div_div_eq_div_mul, pow_succ, Nat.mul_comm]
        · rcases hk' with rfl | hk'
          · simpa using hc'
          · rw [pow_succ]
            have := (Nat.le_div_iff_mul_le (by omega : 0 < 10)).1 hk'
            omega

/-! ## Lines that are cut -/

theorem after_iff {p l r : Line} : after p l = some r ↔ l = p ++ r := by
  unfold after
  constructor
  · intro h
    split at h
    · rename_i hp
      obtain ⟨t, rfl⟩ := List.isPrefixOf_iff_prefix.1 hp
      simp only [List.drop_left, Option.some.injEq] at h
      rw [h]
    · cases h
  · rintro rfl
    rw [if_pos (List.isPrefixOf_iff_prefix.2 (List.prefix_append p r)), List.drop_left]

/-- Plain characters up to the same other one -/
theorem sep_prefix {f : Char → Bool} {a n x y : List Char} {s t : Char} (ha : a.all f = true) (hn : n.all f = true) (hs : f s = false) (ht : f t = false)
    (h : a ++ s :: x <+: n ++ t :: y) : a = n ∧ s = t ∧ x <+: y := by
  induction a generalizing n with
  | nil =>
    cases n with
    | nil =>
      rw [List.nil_append, List.nil_append, List.cons_prefix_cons] at h
      exact ⟨rfl, h⟩
    | cons b n =>
      rw [List.nil_append, List.cons_append, List.cons_prefix_cons] at h
      rw [List.all_cons, Bool.and_eq_true, ← h.1, hs] at hn
      exact absurd hn.1 (by decide)
  | cons c a ih =>
    cases n with
    | nil =>
      rw [List.nil_append, List.cons_append, List.cons_prefix_cons] at h
      rw [List.all_cons, Bool.and_eq_true, h.1, ht] at ha
      exact absurd ha.1 (by decide)
    | cons b n =>
      rw [List.cons_append, List.cons_append, List.cons_prefix_cons] at h
      rw [List.all_cons, Bool.and_eq_true] at ha hn
      obtain ⟨e1, e2, e3⟩ := ih ha.2 hn.2 h.2
      exact ⟨by rw [h.1, e1], e2, e3⟩

theorem nameOf_sep {n x : List Char} {s : Char} (hn : n.all plainChar = true) (hs : plainChar s = false) : nameOf (n ++ s :: x) = (n, s :: x) := by
  unfold nameOf
  induction n with
  | nil => simp [hs]
  | cons c n ih =>
    rw [List.all_cons, Bool.and_eq_true] at hn
    have := ih hn.2
    rw [Prod.mk.injEq] at this
    rw [List.cons_append, List.takeWhile_cons, List.dropWhile_cons, hn.1, if_pos rfl, if_pos rfl, this.1, this.2]

theorem nameOf_append (l : Line) : (nameOf l).1 ++ (nameOf l).2 = l := List.takeWhile_append_dropWhile ..

theorem nameOf_all (l : Line) : (nameOf l).1.all plainChar = true := by
  unfold nameOf
  exact List.all_takeWhile ..

/-- A line of `.info.yaml` -/
def countLine (e : String × ℕ) : Line := "  ".toList ++ e.1.toList ++ ": ".toList ++ Nat.toDigits 10 e.2

theorem readCount_begin {X : Texts} {e : String × ℕ} (he : e.1.toList.all plainChar = true) {q : Line} (hq : q <+: countLine e) {r : String × ℕ}
    (h : readCount X q = some r) :
    r.1 = e.1 ∧ ∃ p, p ≠ [] ∧ p <+: Nat.toDigits 10 e.2 ∧ q = "  ".toList ++ e.1.toList ++ ": ".toList ++ p ∧ r.2 = Nat.ofDigitChars 10 p 0 := by
  unfold readCount at h
  cases h1 : after "  ".toList q with
  | none => rw [h1] at h; cases h
  | some l =>
    rw [h1] at h
    dsimp only at h
    cases h2 : after ": ".toList (nameOf l).2 with
    | none => rw [h2] at h; cases h
    | some v =>
      rw [h2] at h
      dsimp only at h
      split at h
      case isFalse => cases h
      case isTrue hc =>
      have e1 := after_iff.1 h1
      have e2 := after_iff.1 h2
      have e3 := nameOf_append l
      rw [e2] at e3
      unfold countLine at hq
      rw [e1, List.append_assoc, List.append_assoc, List.prefix_append_right_inj, ← e3] at hq
      have hcolon : (": ".toList : List Char) = [':', ' '] := by decide
      rw [hcolon] at hq e3 ⊢
      obtain ⟨a1, -, a2⟩ := sep_prefix (nameOf_all l) he (by decide) (by decide) hq
      change ' ' :: v <+: ' ' :: Nat.toDigits 10 e.2 at a2
      rw [List.cons_prefix_cons] at a2
      cases h
      refine ⟨by rw [a1, String.ofList_toList], v, hc.2.2.1, a2.2, ?_, rfl⟩
      rw [e1, ← e3, a1, List.append_assoc, List.append_assoc]

theorem readCount_whole {X : Texts} {e : String × ℕ} (he : e.1.toList.all plainChar = true) (hne : e.1.toList ≠ []) (hx : X.str e.1.toList = true) :
    readCount X (countLine e) = some e := by
  have e1 : after "  ".toList (countLine e) = some (e.1.toList ++ (':' :: (' ' :: Nat.toDigits 10 e.2))) := by
    rw [after_iff]
    unfold countLine
    simp
  unfold readCount
  rw [e1]
  dsimp only
  rw [nameOf_sep he (by decide)]
  dsimp only
  have e2 : after ": ".toList (':' :: (' ' :: Nat.toDigits 10 e.2)) = some (Nat.toDigits 10 e.2) := by
    rw [after_iff]
    rfl
  rw [e2]
  dsimp only
  rw [if_pos]
  · rw [String.ofList_toList, Nat.ofDigitChars_ten_toDigits]
  · refine ⟨hne, hx, ?_, ?_⟩
    · exact Nat.toDigits_ne_nil
    · rw [List.all_eq_true]
      exact fun c hc => Nat.isDigit_of_mem_toDigits (b := 10) (by omega) (by omega) hc

def itemLine (n : String) : Line := "  - ".toList ++ n.toList
def headLine (p : String) : Line := "  ".toList ++ p.toList ++ ":".toList
def noneLine (p : String) : Line := "  ".toList ++ p.toList ++ ": []".toList

theorem readPart_item {X : Texts} {n : String} {q : Line} (hq : q <+: itemLine n) {r : PartLine} (h : readPartLine X q = some r) :
    ∃ m : String, q = itemLine m ∧ r = .item m ∧ m.toList <+: n.toList := by
  unfold readPartLine at h
  cases h1 : after "  - ".toList q with
  | some v =>
    rw [h1] at h
    dsimp only at h
    have e1 := after_iff.1 h1
    split at h
    · cases h
      refine ⟨String.ofList v, ?_, rfl, ?_⟩
      · unfold itemLine
        rw [e1]
        exact congrArg _ (String.toList_ofList (l := v)).symm
      · unfold itemLine at hq
        rw [e1, List.prefix_append_right_inj] at hq
        rwa [String.toList_ofList]
    · cases h
  | none =>
    rw [h1] at h
    dsimp only at h
    exfalso
    unfold itemLine at hq
    rcases prefix_append_cases hq with hq | ⟨w, rfl, -⟩
    · have : q = "  - ".toList ∨ q = "  -".toList ∨ q = "  ".toList ∨ q = " ".toList ∨ q = [] := by
        have e : "  - ".toList = [' ', ' ', '-', ' '] := by decide
        have e2 : "  -".toList = [' ', ' ', '-'] := by decide
        have e3 : "  ".toList = [' ', ' '] := by decide
        have e4 : " ".toList = [' '] := by decide
        rw [e] at hq
        rw [e, e2, e3, e4]
        obtain ⟨t, ht⟩ := hq
        rcases q with _ | ⟨a, _ | ⟨b, _ | ⟨c, _ | ⟨d, _ | ⟨f, q⟩⟩⟩⟩⟩ <;> simp_all
      rcases this with rfl | rfl | rfl | rfl | rfl
      · rw [show after "  - ".toList "  - ".toList = some [] by decide] at h1; cases h1
      · have e1 : after "  ".toList "  -".toList = some ['-'] := by decide
        rw [e1] at h
        dsimp only at h
        rw [show nameOf ['-'] = (['-'], []) by decide] at h
        split at h
        · rw [if_neg (by decide), if_neg (by decide)] at h; cases h
        · cases h
      · have e1 : after "  ".toList "  ".toList = some [] := by decide
        rw [e1] at h
        dsimp only at h
        rw [show nameOf [] = ([], []) by decide] at h
        rw [if_neg (by simp)] at h
        cases h
      · rw [show after "  ".toList " ".toList = none by decide] at h; cases h
      · rw [show after "  ".toList [] = none by decide] at h; cases h
    · rw [after_iff.2 rfl] at h1; cases h1

theorem readPart_item_whole {X : Texts} {n : String} (hp : n.toList.all plainChar = true) (hn : n.toList ≠ []) (hx : X.str n.toList = true) :
    readPartLine X (itemLine n) = some (.item n) := by
  unfold readPartLine
  rw [show after "  - ".toList (itemLine n) = some n.toList from after_iff.2 rfl]
  dsimp only
  rw [if_pos ⟨hn, hp, hx⟩, String.ofList_toList]

/-- A line that is not an item -/
theorem after_dash {p : String} (hp : p.toList.all plainChar = true) {x : List Char} {q : Line} (hq : q <+: "  ".toList ++ p.toList ++ ':' :: x) :
    after "  - ".toList q = none := by
  cases h : after "  - ".toList q with
  | none => rfl
  | some v =>
    exfalso
    have e := after_iff.1 h
    rw [show "  - ".toList = "  ".toList ++ (['-'] ++ [' ']) by decide, List.append_assoc, List.append_assoc] at e
    rw [e, List.append_assoc, List.prefix_append_right_inj] at hq
    have := sep_prefix (a := ['-']) (s := ' ') (x := v) (t := ':') (f := plainChar) (by decide) hp (by decide) (by decide) (by simpa using hq)
    exact absurd this.2.1 (by decide)

/-- The begin of a line with the name of a part -/
theorem readPart_head {X : Texts} {p : String} (hp : p.toList.all plainChar = true) {x : List Char} {q : Line}
    (hq : q <+: "  ".toList ++ p.toList ++ ':' :: x) {r : PartLine} (h : readPartLine X q = some r) :
    (q = headLine p ∧ r = .head p) ∨ (q = noneLine p ∧ r = .none p) := by
  unfold readPartLine at h
  rw [after_dash hp hq] at h
  dsimp only at h
  cases h1 : after "  ".toList q with
  | none => rw [h1] at h; cases h
  | some l =>
    rw [h1] at h
    dsimp only at h
    have e1 := after_iff.1 h1
    rw [e1, List.append_assoc, List.prefix_append_right_inj, ← nameOf_append l] at hq
    split at h
    case isFalse => cases h
    case isTrue hc =>
    split at h
    · rename_i h2
      rw [h2] at hq
      obtain ⟨a, -, -⟩ := sep_prefix (x := []) (nameOf_all l) hp (by decide) (by decide) hq
      cases h
      left
      refine ⟨?_, by rw [a, String.ofList_toList]⟩
      rw [e1, ← nameOf_append l, a, h2]
      unfold headLine
      rw [List.append_assoc]
    · split at h
      · rename_i h2
        rw [h2] at hq
        obtain ⟨a, -, -⟩ := sep_prefix (x := " []".toList) (nameOf_all l) hp (by decide) (by decide) hq
        cases h
        right
        refine ⟨?_, by rw [a, String.ofList_toList]⟩
        rw [e1, ← nameOf_append l, a, h2]
        unfold noneLine
        rw [List.append_assoc]
      · cases h

theorem headLine_eq (p : String) : headLine p = "  ".toList ++ p.toList ++ ':' :: [] := rfl
theorem noneLine_eq (p : String) : noneLine p = "  ".toList ++ p.toList ++ ':' :: " []".toList := by
  unfold noneLine
  rw [show ": []".toList = ':' :: " []".toList by decide]

theorem readPart_head_whole {X : Texts} {p : String} (hp : p.toList.all plainChar = true) (hn : p.toList ≠ []) (hx : X.str p.toList = true) :
    readPartLine X (headLine p) = some (.head p) ∧ readPartLine X (noneLine p) = some (.none p) := by
  constructor
  · unfold readPartLine
    rw [after_dash (q := headLine p) hp (by rw [headLine_eq])]
    dsimp only
    rw [show after "  ".toList (headLine p) = some (p.toList ++ ':' :: []) from after_iff.2 (by rw [headLine_eq, List.append_assoc])]
    dsimp only
    rw [nameOf_sep hp (by decide)]
    dsimp only
    rw [if_pos ⟨hn, hx⟩, if_pos (by decide), String.ofList_toList]
  · unfold readPartLine
    rw [after_dash (q := noneLine p) hp (by rw [noneLine_eq])]
    dsimp only
    rw [show after "  ".toList (noneLine p) = some (p.toList ++ ':' :: " []".toList) from after_iff.2 (by rw [noneLine_eq, List.append_assoc])]
    dsimp only
    rw [nameOf_sep hp (by decide)]
    dsimp only
    rw [if_pos ⟨hn, hx⟩, if_neg (by decide), if_pos (by decide), String.ofList_toList]

/-! ## Lists and files that are cut -/

/-- The begin of a list of names, whose last name may be cut -/
inductive CutNames : List String → List String → Prop
  | nil {ns} : CutNames ns []
  | begin {n ns m} : m.toList <+: n.toList → CutNames (n :: ns) [m]
  | cons {n ns ms} : CutNames ns ms → CutNames (n :: ns) (n :: ms)

theorem CutNames.refl (ns : List String) : CutNames ns ns := by
  induction ns with
  | nil => exact .nil
  | cons n ns ih => exact .cons ih

/-- The first split parts, of which the last may be cut -/
inductive CutParts : Dict (List String) → Dict (List String) → Prop
  | nil {ps} : CutParts ps []
  | cut {p names ns ps} : CutNames names ns → CutParts ((p, names) :: ps) [(p, ns)]
  | cons {x ps ps'} : CutParts ps ps' → CutParts (x :: ps) (x :: ps')

/-- The first counts, of which the last may have lost digits -/
inductive CutCounts : Dict ℕ → Dict ℕ → Prop
  | nil {ps} : CutCounts ps []
  | cut {n c c' ps} (k : ℕ) : c' = c / 10 ^ k → (k = 0 ∨ 10 ^ k ≤ c) → CutCounts ((n, c) :: ps) [(n, c')]
  | cons {x ps ps'} : CutCounts ps ps' → CutCounts (x :: ps) (x :: ps')

theorem CutLines.append {a b L : List Line} (h : CutLines (a ++ b) L) : CutLines a L ∨ ∃ L', L = a ++ L' ∧ CutLines b L' := by
  induction a generalizing L with
  | nil => exact Or.inr ⟨L, rfl, h⟩
  | cons l a ih =>
    rw [List.cons_append] at h
    cases h with
    | nil => exact Or.inl .nil
    | begin hq => exact Or.inl (.begin hq)
    | cons h =>
      rcases ih h with h | ⟨L', rfl, h'⟩
      · exact Or.inl (.cons h)
      · exact Or.inr ⟨L', rfl, h'⟩

theorem allSome_cons {α : Type} {o : Option α} {l : List (Option α)} {r : List α} (h : allSome (o :: l) = some r) :
    ∃ a r', o = some a ∧ allSome l = some r' ∧ r = a :: r' := by
  cases o with
  | none => cases h
  | some a =>
    rw [allSome] at h
    cases hl : allSome l with
    | none => rw [hl] at h; cases h
    | some r' => rw [hl] at h; cases h; exact ⟨a, r', rfl, rfl, rfl⟩

theorem readCounts_cut {X : Texts} {d : Dict ℕ} (hd : ∀ e ∈ d, e.1.toList.all plainChar = true) {L : List Line} (hL : CutLines (d.map countLine) L)
    {r : Dict ℕ} (h : allSome (L.map (readCount X)) = some r) : CutCounts d r := by
  induction d generalizing L r with
  | nil =>
    cases hL
    cases h
    exact .nil
  | cons e d ih =>
    rw [List.map_cons] at hL
    cases hL with
    | nil => cases h; exact .nil
    | begin hq =>
      obtain ⟨a, r', h1, h2, rfl⟩ := allSome_cons h
      cases h2
      obtain ⟨e1, p, hp, hpp, -, e2⟩ := readCount_begin (hd e (List.mem_cons_self ..)) hq h1
      obtain ⟨k, hk, hk'⟩ := digits_prefix e.2 hp hpp
      obtain ⟨n, c⟩ := e
      obtain ⟨m, c'⟩ := a
      dsimp only at e1 e2 hk hk'
      subst e1
      exact .cut k (e2.trans hk) hk'
    | cons hL =>
      obtain ⟨a, r', h1, h2, rfl⟩ := allSome_cons h
      obtain ⟨e1, p, hp, hpp, e3, e2⟩ := readCount_begin (hd e (List.mem_cons_self ..)) (List.prefix_refl _) h1
      have : p = Nat.toDigits 10 e.2 := by
        unfold countLine at e3
        exact (List.append_cancel_left e3).symm
      rw [this, Nat.ofDigitChars_ten_toDigits] at e2
      obtain rfl : a = e := Prod.ext e1 e2
      exact .cons (ih (fun e h => hd e (List.mem_cons_of_mem _ h)) hL h2)

theorem readParts_cons (X : Texts) (l : Line) (ls : List Line) : readParts X (l :: ls) = addPartLine (readPartLine X l) (readParts X ls) := rfl

theorem addPartLine_some {l : Option PartLine} {r : Option (List String × Dict (List String))} {x : List String × Dict (List String)}
    (h : addPartLine l r = some x) : ∃ a y, l = some a ∧ r = some y := by
  cases l with
  | none => cases r <;> cases h
  | some a =>
    cases r with
    | none => cases a <;> cases h
    | some y => exact ⟨a, y, rfl, rfl⟩

theorem readParts_items_cut {X : Texts} {names : List String} {L : List Line} (hL : CutLines (names.map itemLine) L) {items : List String}
    {d : Dict (List String)} (h : readParts X L = some (items, d)) : d = [] ∧ CutNames names items := by
  induction names generalizing L items with
  | nil =>
    cases hL
    cases h
    exact ⟨rfl, .nil⟩
  | cons n names ih =>
    rw [List.map_cons] at hL
    cases hL with
    | nil => cases h; exact ⟨rfl, .nil⟩
    | begin hq =>
      rw [readParts_cons] at h
      obtain ⟨a, y, h1, h2⟩ := addPartLine_some h
      obtain ⟨m, -, rfl, hm⟩ := readPart_item hq h1
      rw [h1] at h
      cases h
      exact ⟨rfl, .begin hm⟩
    | cons hL =>
      rw [readParts_cons] at h
      obtain ⟨a, ⟨items', d'⟩, h1, h2⟩ := addPartLine_some h
      obtain ⟨m, e, rfl, hm⟩ := readPart_item (List.prefix_refl _) h1
      have : n = m := by
        unfold itemLine at e
        exact String.toList_inj.1 (List.append_cancel_left e)
      subst this
      rw [h1, h2] at h
      cases h
      obtain ⟨rfl, hc⟩ := ih hL h2
      exact ⟨rfl, .cons hc⟩

theorem readParts_items {X : Texts} {names : List String} {L : List Line} {items : List String} {d : Dict (List String)}
    (h : readParts X (names.map itemLine ++ L) = some (items, d)) : ∃ items', readParts X L = some (items', d) ∧ items = names ++ items' := by
  induction names generalizing items with
  | nil => exact ⟨items, h, rfl⟩
  | cons n names ih =>
    rw [List.map_cons, List.cons_append, readParts_cons] at h
    obtain ⟨a, ⟨items', d'⟩, h1, h2⟩ := addPartLine_some h
    obtain ⟨m, e, rfl, hm⟩ := readPart_item (List.prefix_refl _) h1
    have : n = m := by
      unfold itemLine at e
      exact String.toList_inj.1 (List.append_cancel_left e)
    subst this
    rw [h1, h2] at h
    cases h
    obtain ⟨i, h3, rfl⟩ := ih h2
    exact ⟨i, h3, rfl⟩

theorem headLine_ne_noneLine (p : String) : headLine p ≠ noneLine p := by
  intro h
  unfold headLine noneLine at h
  exact absurd (List.append_cancel_left h) (by decide)

theorem readParts_cut {X : Texts} {ps : Dict (List String)} (hp : ∀ p ∈ ps, p.1.toList.all plainChar = true) {L : List Line}
    (hL : CutLines (ps.flatMap partLines) L) {items : List String} {d : Dict (List String)} (h : readParts X L = some (items, d)) :
    items = [] ∧ CutParts ps d := by
  induction ps generalizing L items d with
  | nil =>
    cases hL
    cases h
    exact ⟨rfl, .nil⟩
  | cons p ps ih =>
    obtain ⟨name, names⟩ := p
    have hname : name.toList.all plainChar = true := hp _ (List.mem_cons_self ..)
    have hp' : ∀ p ∈ ps, p.1.toList.all plainChar = true := fun p h => hp p (List.mem_cons_of_mem _ h)
    rw [List.flatMap_cons] at hL
    cases names with
    | nil =>
      change CutLines (noneLine name :: ps.flatMap partLines) L at hL
      cases hL with
      | nil => cases h; exact ⟨rfl, .nil⟩
      | begin hq =>
        rw [readParts_cons] at h
        obtain ⟨a, y, h1, h2⟩ := addPartLine_some h
        rw [noneLine_eq] at hq
        rcases readPart_head hname hq h1 with ⟨-, rfl⟩ | ⟨-, rfl⟩
        · rw [h1] at h; cases h
        · rw [h1] at h; cases h; exact ⟨rfl, .cons .nil⟩
      | cons hL =>
        rw [readParts_cons] at h
        obtain ⟨a, ⟨items', d'⟩, h1, h2⟩ := addPartLine_some h
        obtain ⟨rfl, hc⟩ := ih hp' hL h2
        rcases readPart_head hname (by rw [← noneLine_eq]) h1 with ⟨e, -⟩ | ⟨-, rfl⟩
        · exact absurd e.symm (headLine_ne_noneLine _)
        · rw [h1, h2] at h
          cases h
          exact ⟨rfl, .cons hc⟩
    | cons n names =>
      change CutLines (headLine name :: ((n :: names).map itemLine ++ ps.flatMap partLines)) L at hL
      cases hL with
      | nil => cases h; exact ⟨rfl, .nil⟩
      | begin hq =>
        rw [readParts_cons] at h
        obtain ⟨a, y, h1, h2⟩ := addPartLine_some h
        rw [headLine_eq] at hq
        rcases readPart_head hname hq h1 with ⟨-, rfl⟩ | ⟨e, -⟩
        · rw [h1] at h; cases h
        · subst e
          rw [noneLine_eq, List.prefix_append_right_inj, List.cons_prefix_cons] at hq
          exact absurd hq.2 (by decide)
      | cons hL =>
        rw [readParts_cons] at h
        obtain ⟨a, ⟨items', d'⟩, h1, h2⟩ := addPartLine_some h
        rcases readPart_head hname (by rw [← headLine_eq]) h1 with ⟨-, rfl⟩ | ⟨e, -⟩
        · rw [h1, h2] at h
          unfold addPartLine at h
          dsimp only at h
          split at h
          · cases h
          · cases h
            rcases hL.append with hL | ⟨L', rfl, hL'⟩
            · obtain ⟨rfl, hc⟩ := readParts_items_cut hL h2
              exact ⟨rfl, .cut hc⟩
            · obtain ⟨items'', h3, rfl⟩ := readParts_items h2
              obtain ⟨rfl, hc⟩ := ih hp' hL' h3
              rw [List.append_nil]
              exact ⟨rfl, .cons hc⟩
        · exact absurd e (headLine_ne_noneLine _)

theorem readParts_whole {X : Texts} {ps : Dict (List String)}
    (hp : ∀ p ∈ ps, p.1.toList.all plainChar = true ∧ p.1.toList ≠ [] ∧ X.str p.1.toList = true)
    (hn : ∀ p ∈ ps, ∀ n ∈ p.2, n.toList.all plainChar = true ∧ n.toList ≠ [] ∧ X.str n.toList = true) :
    readParts X (ps.flatMap partLines) = some ([], ps) := by
  induction ps with
  | nil => rfl
  | cons p ps ih =>
    obtain ⟨name, names⟩ := p
    have ih := ih (fun p h => hp p (List.mem_cons_of_mem _ h)) fun p h => hn p (List.mem_cons_of_mem _ h)
    have h1 := hp _ (List.mem_cons_self ..)
    have h2 := hn _ (List.mem_cons_self ..)
    obtain ⟨e1, e2⟩ := readPart_head_whole h1.1 h1.2.1 h1.2.2
    dsimp only at h1 h2 e1 e2
    rw [List.flatMap_cons]
    cases names with
    | nil =>
      change readParts X (noneLine name :: ps.flatMap partLines) = _
      rw [readParts_cons, e2, ih]
      rfl
    | cons n names =>
      change readParts X (headLine name :: ((n :: names).map itemLine ++ ps.flatMap partLines)) = _
      have key : ∀ ns : List String, (∀ n ∈ ns, n.toList.all plainChar = true ∧ n.toList ≠ [] ∧ X.str n.toList = true) →
          readParts X (ns.map itemLine ++ ps.flatMap partLines) = some (ns, ps) := by
        intro ns hns
        induction ns with
        | nil => exact ih
        | cons m ns ih' =>
          have hm := hns m (List.mem_cons_self ..)
          rw [List.map_cons, List.cons_append, readParts_cons, readPart_item_whole hm.1 hm.2.1 hm.2.2,
            ih' fun n h => hns n (List.mem_cons_of_mem _ h)]
          rfl
      rw [readParts_cons, e1, key _ h2]
      rfl

/-! ## The whole files -/

/-- A name that is written as it is and read as a string -/
def PlainName (X : Texts) (n : String) : Prop := n.toList.all plainChar = true ∧ n.toList ≠ [] ∧ X.str n.toList = true

/-- Counts and split parts as they are written: dicts with plain names -/
structure Proper (X : Texts) (counts : Dict ℕ) (parts : Dict (List String)) : Prop where
  keys : (counts.map Prod.fst).Nodup
  partKeys : (parts.map Prod.fst).Nodup
  name : ∀ e ∈ counts, PlainName X e.1
  part : ∀ p ∈ parts, PlainName X p.1
  listed : ∀ p ∈ parts, ∀ n ∈ p.2, PlainName X n

theorem sortKeys_perm {α : Type} (d : Dict α) : (sortKeys d).Perm d := List.perm_insertionSort ..

theorem Dict.get_perm {α : Type} {d d' : Dict α} (h : d'.Perm d) (hn : (d.map Prod.fst).Nodup) (k : String) : d'.get k = d.get k := by
  have hn' : (d'.map Prod.fst).Nodup := (h.map Prod.fst).nodup_iff.2 hn
  cases hk : d.get k with
  | some v => exact Dict.get_of_mem hn' (h.mem_iff.2 (Dict.get_mem hk))
  | none =>
    cases hk' : d'.get k with
    | none => rfl
    | some v =>
      have := Dict.get_of_mem hn (h.mem_iff.1 (Dict.get_mem hk'))
      rw [hk] at this
      cases this

theorem plain_no_break {l : Line} (h : l.all plainChar = true) : '\n' ∉ l := by
  intro hm
  have := List.all_eq_true.1 h _ hm
  exact absurd this (by decide)

theorem infoLines_eq (counts : Dict ℕ) :
    infoLines' counts = ["shard_counts: {}".toList] ∧ sortKeys counts = [] ∨
    infoLines' counts = "shard_counts:".toList :: (sortKeys counts).map countLine ∧ sortKeys counts ≠ [] := by
  unfold infoLines'
  cases h : sortKeys counts with
  | nil => exact Or.inl ⟨rfl, rfl⟩
  | cons e d => exact Or.inr ⟨rfl, by simp⟩

theorem splitLines_eq (parts : Dict (List String)) :
    splitLines parts = ["exclude: []".toList, "split_parts: {}".toList] ∧ sortKeys parts = [] ∨
    splitLines parts = "exclude: []".toList :: "split_parts:".toList :: (sortKeys parts).flatMap partLines ∧ sortKeys parts ≠ [] := by
  unfold splitLines
  cases h : sortKeys parts with
  | nil => exact Or.inl ⟨rfl, rfl⟩
  | cons e d => exact Or.inr ⟨rfl, by simp⟩

theorem notBlank_of_mem {l : Line} {c : Char} (hc : c ≠ ' ') (h : c ∈ l) : blankLine l = false := by
  cases hb : blankLine l with
  | false => rfl
  | true =>
    have := List.all_eq_true.1 hb c h
    simp only [decide_eq_true_eq] at this
    exact absurd this hc

theorem infoLines_fine {X : Texts} {counts : Dict ℕ} (h : ∀ e ∈ counts, PlainName X e.1) :
    (∀ l ∈ infoLines' counts, '\n' ∉ l) ∧ ∀ l ∈ infoLines' counts, blankLine l = false := by
  have key : ∀ e ∈ sortKeys counts, '\n' ∉ countLine e ∧ blankLine (countLine e) = false := by
    intro e he
    have hp := (h e ((sortKeys_perm counts).mem_iff.1 he)).1
    constructor
    · unfold countLine
      simp only [List.mem_append, not_or]
      refine ⟨⟨⟨by decide, plain_no_break hp⟩, by decide⟩, ?_⟩
      intro hm
      have := Nat.isDigit_of_mem_toDigits (b := 10) (by omega) (by omega) hm
      exact absurd this (by decide)
    · refine notBlank_of_mem (c := ':') (by decide) ?_
      unfold countLine
      simp
  rcases infoLines_eq counts with ⟨e, -⟩ | ⟨e, -⟩ <;> rw [e]
  · constructor <;> intro l hl <;> rw [List.mem_singleton] at hl <;> subst hl <;> decide
  · constructor <;> intro l hl <;> rw [List.mem_cons] at hl <;> rcases hl with rfl | hl
    · decide
    · obtain ⟨e, he, rfl⟩ := List.mem_map.1 hl; exact (key e he).1
    · decide
    · obtain ⟨e, he, rfl⟩ := List.mem_map.1 hl; exact (key e he).2

theorem splitLines_fine {X : Texts} {parts : Dict (List String)} (hp : ∀ p ∈ parts, PlainName X p.1) (hn : ∀ p ∈ parts, ∀ n ∈ p.2, PlainName X n) :
    (∀ l ∈ splitLines parts, '\n' ∉ l) ∧ ∀ l ∈ splitLines parts, blankLine l = false := by
  have key : ∀ p ∈ sortKeys parts, ∀ l ∈ partLines p, '\n' ∉ l ∧ blankLine l = false := by
    intro p hm l hl
    have hmem := (sortKeys_perm parts).mem_iff.1 hm
    have h1 := plain_no_break (hp p hmem).1
    have h2 := fun n h => plain_no_break (hn p hmem n h).1
    obtain ⟨name, names⟩ := p
    dsimp only at h1 h2
    have hhead : '\n' ∉ headLine name ∧ blankLine (headLine name) = false := by
      constructor
      · unfold headLine; simp only [List.mem_append, not_or]; exact ⟨⟨by decide, h1⟩, by decide⟩
      · refine notBlank_of_mem (c := ':') (by decide) ?_
        unfold headLine; simp
    have hnone : '\n' ∉ noneLine name ∧ blankLine (noneLine name) = false := by
      constructor
      · unfold noneLine; simp only [List.mem_append, not_or]; exact ⟨⟨by decide, h1⟩, by decide⟩
      · refine notBlank_of_mem (c := ':') (by decide) ?_
        unfold noneLine; simp
    cases names with
    | nil =>
      change l ∈ [noneLine name] at hl
      rw [List.mem_singleton] at hl
      rw [hl]
      exact hnone
    | cons n names =>
      change l ∈ headLine name :: (n :: names).map itemLine at hl
      rw [List.mem_cons] at hl
      rcases hl with rfl | hl
      · exact hhead
      · obtain ⟨m, hm, rfl⟩ := List.mem_map.1 hl
        constructor
        · unfold itemLine; simp only [List.mem_append, not_or]; exact ⟨by decide, h2 m hm⟩
        · refine notBlank_of_mem (c := '-') (by decide) ?_
          unfold itemLine; simp
  rcases splitLines_eq parts with ⟨e, -⟩ | ⟨e, -⟩ <;> rw [e]
  · constructor <;> intro l hl <;> rw [List.mem_cons, List.mem_singleton] at hl <;> rcases hl with rfl | rfl <;> decide
  · constructor <;> intro l hl <;> rw [List.mem_cons, List.mem_cons] at hl <;> rcases hl with rfl | rfl | hl
    · decide
    · decide
    · obtain ⟨p, hp, hl⟩ := List.mem_flatMap.1 hl; exact (key p hp l hl).1
    · decide
    · decide
    · obtain ⟨p, hp, hl⟩ := List.mem_flatMap.1 hl; exact (key p hp l hl).2

theorem readInfo_whole {X : Texts} {counts : Dict ℕ} (h : ∀ e ∈ counts, PlainName X e.1) :
    readInfo X (render (infoLines' counts)) = some (sortKeys counts) := by
  obtain ⟨h1, h2⟩ := infoLines_fine h
  unfold readInfo
  rw [linesOf_render h1 h2]
  rcases infoLines_eq counts with ⟨e, e'⟩ | ⟨e, e'⟩
  · rw [e, e']; rfl
  · rw [e]
    dsimp only
    rw [if_neg (by rintro ⟨hh, -⟩; exact absurd hh (by decide)), if_pos ⟨rfl, by simpa using e'⟩, List.map_map]
    rw [allSome_map (readCount X ∘ countLine) id]
    · simp
    · intro e he
      have := h e ((sortKeys_perm counts).mem_iff.1 he)
      exact readCount_whole this.1 this.2.1 this.2.2

theorem readInfo_cut {X : Texts} {counts : Dict ℕ} (h : ∀ e ∈ counts, PlainName X e.1) {p : List Char} (hp : p <+: render (infoLines' counts)) {r : Dict ℕ}
    (hr : readInfo X p = some r) : CutCounts (sortKeys counts) r := by
  obtain ⟨h1, h2⟩ := infoLines_fine h
  have hc := linesOf_cut h1 h2 hp
  unfold readInfo at hr
  cases hl : linesOf p with
  | nil => rw [hl] at hr; cases hr
  | cons a ls =>
    rw [hl] at hr hc
    dsimp only at hr
    split at hr
    · cases hr; exact .nil
    · split at hr
      · rename_i h3
        rcases infoLines_eq counts with ⟨e, -⟩ | ⟨e, -⟩
        · rw [e] at hc
          exfalso
          cases hc with
          | begin hq => exact h3.2 rfl
          | cons hc => cases hc; exact h3.2 rfl
        · rw [e] at hc
          cases hc with
          | begin hq => exact absurd rfl h3.2
          | cons hc => exact readCounts_cut (fun e he => (h e ((sortKeys_perm counts).mem_iff.1 he)).1) hc hr
      · cases hr

theorem readSplit_whole {X : Texts} {parts : Dict (List String)} (hp : ∀ p ∈ parts, PlainName X p.1) (hn : ∀ p ∈ parts, ∀ n ∈ p.2, PlainName X n) :
    readSplit X (render (splitLines parts)) = some (sortKeys parts) := by
  obtain ⟨h1, h2⟩ := splitLines_fine hp hn
  unfold readSplit
  rw [linesOf_render h1 h2]
  rcases splitLines_eq parts with ⟨e, e'⟩ | ⟨e, e'⟩
  · rw [e, e']; rfl
  · rw [e]
    dsimp only
    have hne : (sortKeys parts).flatMap partLines ≠ [] := by
      cases hs : sortKeys parts with
      | nil => exact absurd hs e'
      | cons p ps =>
        rw [List.flatMap_cons]
        obtain ⟨name, names⟩ := p
        cases names <;> simp [partLines]
    rw [if_pos rfl, if_neg (by rintro ⟨hh, -⟩; exact absurd hh (by decide)), if_pos ⟨rfl, hne⟩, readParts_whole]
    · intro p h; exact hp p ((sortKeys_perm parts).mem_iff.1 h)
    · intro p h; exact hn p ((sortKeys_perm parts).mem_iff.1 h)

theorem readSplit_cut {X : Texts} {parts : Dict (List String)} (hp : ∀ p ∈ parts, PlainName X p.1) (hn : ∀ p ∈ parts, ∀ n ∈ p.2, PlainName X n)
    {q : List Char} (hq : q <+: render (splitLines parts)) {r : Dict (List String)} (hr : readSplit X q = some r) : CutParts (sortKeys parts) r := by
  obtain ⟨h1, h2⟩ := splitLines_fine hp hn
  have hc := linesOf_cut h1 h2 hq
  unfold readSplit at hr
  cases hl : linesOf q with
  | nil => rw [hl] at hr; cases hr
  | cons a ls =>
    cases ls with
    | nil => rw [hl] at hr; cases hr
    | cons b ls =>
      rw [hl] at hr hc
      dsimp only at hr
      split at hr
      case isFalse => cases hr
      case isTrue ha =>
      split at hr
      · cases hr; exact .nil
      · split at hr
        · rename_i h3
          rcases splitLines_eq parts with ⟨e, -⟩ | ⟨e, -⟩
          · rw [e] at hc
            exfalso
            cases hc with
            | cons hc =>
              cases hc with
              | begin hq => exact h3.2 rfl
              | cons hc => cases hc; exact h3.2 rfl
          · rw [e] at hc
            cases hc with
            | cons hc =>
              cases hc with
              | begin hq => exact absurd rfl h3.2
              | cons hc =>
                cases hs : readParts X ls with
                | none => rw [hs] at hr; cases hr
                | some x =>
                  obtain ⟨items, d⟩ := x
                  obtain ⟨rfl, hd⟩ := readParts_cut (fun p h => (hp p ((sortKeys_perm parts).mem_iff.1 h)).1) hc hs
                  rw [hs] at hr
                  cases hr
                  exact hd
        · cases hr

/-! ## What is loaded -/

/-- The specification: `l` are the shards listed for the part, at least one, in order, with their numbers of samples. -/
def ListsShards (counts : Dict ℕ) (parts : Dict (List String)) (part : String) (l : List Shard) : Prop :=
  l ≠ [] ∧ parts.get part = some (l.map Shard.name) ∧ ∀ s ∈ l, counts.get s.name = some s.count

theorem flatMap_plain {expand : String → List String} (hx : ∀ n : String, n.toList.all plainChar = true → expand n = [n]) {ns : List String}
    (h : ∀ n ∈ ns, n.toList.all plainChar = true) : ns.flatMap expand = ns := by
  induction ns with
  | nil => rfl
  | cons n ns ih =>
    rw [List.flatMap_cons, hx n (h n (List.mem_cons_self ..)), ih fun n hn => h n (List.mem_cons_of_mem _ hn)]
    rfl

theorem lookups_iff (counts : Dict ℕ) (names : List String) (l : List Shard) :
    names.map (fun n => (counts.get n).map (fun c => (⟨n, c⟩ : Shard))) = l.map some ↔ names = l.map Shard.name ∧ ∀ s ∈ l, counts.get s.name = some s.count := by
  induction names generalizing l with
  | nil =>
    cases l with
    | nil => simp
    | cons s l => simp
  | cons n names ih =>
    cases l with
    | nil => simp
    | cons s l =>
      rw [List.map_cons, List.map_cons, List.map_cons, List.cons.injEq, List.cons.injEq, ih l]
      constructor
      · rintro ⟨h1, h2, h3⟩
        cases hg : counts.get n with
        | none => rw [hg] at h1; cases h1
        | some c =>
          rw [hg] at h1
          cases h1
          refine ⟨⟨rfl, h2⟩, ?_⟩
          intro s hs
          rcases List.mem_cons.1 hs with rfl | hs
          · exact hg
          · exact h3 s hs
      · rintro ⟨⟨rfl, h2⟩, h3⟩
        refine ⟨?_, h2, fun s hs => h3 s (List.mem_cons_of_mem _ hs)⟩
        rw [h3 s (List.mem_cons_self ..)]
        rfl

theorem fromConfig_iff {expand : String → List String} (hx : ∀ n : String, n.toList.all plainChar = true → expand n = [n]) {counts : Dict ℕ}
    {parts : Dict (List String)} {part : String} (hn : ∀ names, parts.get part = some names → ∀ n ∈ names, n.toList.all plainChar = true) (l : List Shard) :
    (∃ e, fromConfig expand counts parts [] part = .shards l e) ↔ ListsShards counts parts part l := by
  unfold fromConfig ListsShards
  cases hp : parts.get part with
  | none => simp
  | some names =>
    dsimp only
    have hf : (names.flatMap expand).filter (fun n => decide (n ∉ ([] : List String).flatMap expand)) = names := by
      rw [flatMap_plain hx (hn names hp)]
      simp
    rw [hf]
    by_cases h0 : names = []
    · subst h0
      simp only [List.length_nil, if_true]
      constructor
      · rintro ⟨e, he⟩; cases he
      · rintro ⟨h1, h2, -⟩
        injection h2 with h2
        exact absurd (List.map_eq_nil_iff.1 h2.symm) h1
    · rw [if_neg (by simpa using h0)]
      rw [Option.some.injEq]
      constructor
      · rintro ⟨e, he⟩
        split at he
        · cases he
        · rename_i l' h
          cases he
          obtain ⟨e1, e2⟩ := (lookups_iff counts names l).1 ((allSome_iff _ _).1 h)
          refine ⟨?_, e1, e2⟩
          rintro rfl
          exact h0 e1
      · rintro ⟨-, h2, h3⟩
        rw [(allSome_iff _ _).2 ((lookups_iff counts names l).2 ⟨h2, h3⟩)]
        exact ⟨_, rfl⟩

theorem loadPart_iff {X : Texts} {expand : String → List String} {d : Folder} {part : String} {l : List Shard} :
    loadPart X expand d part = some l ↔ ∃ i ds s counts parts, d .info = some i ∧ d .dataset = some ds ∧ d .split = some s ∧ X.usable ds = true ∧
      readInfo X i = some counts ∧ readSplit X s = some parts ∧ ∃ e, fromConfig expand counts parts [] part = .shards l e := by
  unfold loadPart
  cases hi : d .info with
  | none => simp
  | some i =>
    cases hds : d .dataset with
    | none => simp
    | some ds =>
      cases hs : d .split with
      | none => simp
      | some s =>
        dsimp only
        cases hu : X.usable ds with
        | false => simp [hu]
        | true =>
          rw [if_pos rfl]
          cases hri : readInfo X i with
          | none => simp [hri]
          | some counts =>
            cases hrs : readSplit X s with
            | none => simp [hri, hrs]
            | some parts =>
              dsimp only
              constructor
              · intro h
                split at h
                · rename_i l' e he
                  cases h
                  exact ⟨i, ds, s, counts, parts, rfl, rfl, rfl, hu, hri, hrs, e, he⟩
                · cases h
              · rintro ⟨i', ds', s', counts', parts', e1, e2, e3, h4, h5, h6, e, h7⟩
                cases e1; cases e2; cases e3
                rw [hri] at h5; rw [hrs] at h6
                cases h5; cases h6
                rw [h7]

end Verif.Prep
