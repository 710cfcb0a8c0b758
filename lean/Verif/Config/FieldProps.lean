import Mathlib.Tactic.Tauto
import Verif.Config.FieldModel

/-! # Field maps: properties -/

namespace Verif.Config

variable {O : Type}

/-! ## Specification -/

/-- `r` is what is found in `v` by following the names `path`: keys of dicts, positions in lists. -/
inductive At (int : Str → Option Int) : Val O → List Str → Val O → Prop
  | here (v : Val O) : At int v [] v
  | key {l : List (Str × Val O)} {k : Str} {ks : List Str} {v r : Val O} :
      l.lookup k = some v → At int v ks r → At int (.dict l) (k :: ks) r
  | pos {l : List (Val O)} {k : Str} {ks : List Str} {i : Int} {n : Nat} {v r : Val O} :
      int k = some i → l[n]? = some v → (i = n ∨ i = (n : Int) - l.length) → At int v ks r → At int (.list l) (k :: ks) r

/-- A name that can be used in a field description -/
def Plain (s : Str) : Prop := s ≠ [] ∧ ∀ c ∈ s, c ≠ ',' ∧ c ≠ '[' ∧ c ≠ ']'

/-- The text `name[key1][key2]...` -/
def altText (a : Str × List Str) : Str := a.1 ++ a.2.flatMap fun k => '[' :: (k ++ [']'])

/-! ## Splitting -/

theorem plainChar_of {s : Str} (h : Plain s) : ∀ c ∈ s, plainChar c = true := by
  intro c hc
  have := h.2 c hc
  simp [plainChar, this.2.1, this.2.2]

theorem accIn_append {s : Str} (h : ∀ c ∈ s, plainChar c = true) (l : Str) : accIn (s ++ ']' :: l) = accOut l := by
  induction s with
  | nil => simp [accIn]
  | cons c s ih =>
    have hc := h c (by simp)
    have hne : c ≠ ']' := by simp [plainChar] at hc; exact hc.2
    simp only [List.cons_append, accIn, hne, if_false, hc, if_true]
    exact ih fun d hd => h d (by simp [hd])

theorem accOut_keys (ks : List Str) (h : ∀ k ∈ ks, Plain k) :
    accOut (ks.flatMap fun k => '[' :: (k ++ [']'])) = true := by
  induction ks with
  | nil => simp [accOut]
  | cons k ks ih =>
    obtain ⟨c, s, rfl⟩ : ∃ c s, k = c :: s := by
      cases k with
      | nil => exact absurd rfl (h [] (by simp)).1
      | cons c s => exact ⟨c, s, rfl⟩
    have hp := plainChar_of (h (c :: s) (by simp))
    simp only [List.flatMap_cons, List.cons_append, List.append_assoc, accOut, if_true, accOpen,
      hp c (by simp), List.nil_append]
    rw [accIn_append (fun d hd => hp d (by simp [hd]))]
    exact ih fun k hk => h k (by simp [hk])

theorem splitBr_ne_nil (s : Str) : splitBr s ≠ [] := by
  fun_cases splitBr s <;> simp_all

theorem splitBr_cons {c : Char} {l : Str} (h : ¬ (c = ']' ∧ l.head? = some '[')) :
    splitBr (c :: l) = (c :: (splitBr l).headD []) :: (splitBr l).tail := by
  cases l with
  | nil => simp [splitBr]
  | cons d l =>
    simp only [List.head?_cons, Option.some.injEq] at h
    simp only [splitBr, h, if_false]
    cases hs : splitBr (d :: l) with
    | nil => exact absurd hs (splitBr_ne_nil _)
    | cons x xs => simp

/-- characters that are no closing bracket go to the first piece -/
theorem splitBr_append {s : Str} (h : ∀ c ∈ s, c ≠ ']') (l : Str) :
    splitBr (s ++ l) = (s ++ (splitBr l).headD []) :: (splitBr l).tail := by
  induction s with
  | nil =>
    cases hs : splitBr l with
    | nil => exact absurd hs (splitBr_ne_nil _)
    | cons x xs => simp [hs]
  | cons c s ih =>
    rw [List.cons_append, splitBr_cons (by simp [h c (by simp)]), ih fun d hd => h d (by simp [hd])]
    simp

/-- the pieces of `k][k2][k3...]` -/
theorem splitBr_tail (k : Str) (ks : List Str) (hk : Plain k) (h : ∀ k ∈ ks, Plain k) :
    ∃ last, splitBr (k ++ ']' :: ks.flatMap fun k => '[' :: (k ++ [']'])) =
      ((k :: ks).dropLast) ++ [last ++ [']']] ∧ (k :: ks).getLast (by simp) = last := by
  induction ks generalizing k with
  | nil =>
    refine ⟨k, ?_, by simp⟩
    rw [splitBr_append fun c hc => (hk.2 c hc).2.2]
    simp [splitBr]
  | cons k2 ks ih =>
    obtain ⟨last, h1, h2⟩ := ih k2 (h k2 (by simp)) fun k hk => h k (by simp [hk])
    refine ⟨last, ?_, by simpa using h2⟩
    rw [splitBr_append fun c hc => (hk.2 c hc).2.2]
    simp only [List.flatMap_cons, List.cons_append, List.append_assoc, List.nil_append, splitBr, and_self, if_true, List.headD_cons,
      List.append_nil, List.tail_cons]
    rw [h1]
    simp

theorem rstrip_plain {s : Str} (h : ∀ c ∈ s, c ≠ ']') : rstripBr s = s := by
  unfold rstripBr
  have : s.reverse.dropWhile (· = ']') = s.reverse := by
    cases hs : s.reverse with
    | nil => simp
    | cons c l =>
      have hc : c ≠ ']' := h c (by rw [← List.mem_reverse, hs]; simp)
      simp [hc]
  rw [this, List.reverse_reverse]

theorem rstrip_closed {s : Str} (h : ∀ c ∈ s, c ≠ ']') : rstripBr (s ++ [']']) = s := by
  have := rstrip_plain h
  unfold rstripBr at this ⊢
  simpa using this

theorem lstrip_plain {s : Str} (h : ∀ c ∈ s, c ≠ '[') (l : Str) (hs : s ≠ []) : (s ++ l).dropWhile (· = '[') = s ++ l := by
  cases s with
  | nil => exact absurd rfl hs
  | cons c s => simp [h c (by simp)]

theorem splitOption_text (desc : Str) (a : Str × List Str) (hn : Plain a.1) (hk : ∀ k ∈ a.2, Plain k) :
    splitOption desc (altText a) = a.1 :: a.2 := by
  obtain ⟨n, ks⟩ := a
  simp only at hn hk
  have hp := plainChar_of hn
  have hsplit : ∀ l : Str, (l = [] ∨ l.head? = some '[') →
      (n ++ l).takeWhile plainChar = n ∧ (n ++ l).dropWhile plainChar = l := by
    intro l hl
    have h0 : l.takeWhile plainChar = [] ∧ l.dropWhile plainChar = l := by
      rcases hl with rfl | hl
      · simp
      · cases l with
        | nil => simp at hl
        | cons c l =>
          simp only [List.head?_cons, Option.some.injEq] at hl
          subst hl
          have : plainChar '[' = false := by decide
          simp [this]
    rw [List.takeWhile_append_of_pos (fun c hc => hp c hc), List.dropWhile_append_of_pos (fun c hc => hp c hc), h0.1, h0.2]
    simp
  have hl : (ks.flatMap fun k => '[' :: (k ++ [']'])) = [] ∨ (ks.flatMap fun k => '[' :: (k ++ [']'])).head? = some '[' := by
    cases ks with
    | nil => left; rfl
    | cons k ks => right; simp
  obtain ⟨h1, h2⟩ := hsplit _ hl
  simp only [splitOption, altText, h1, h2, accOut_keys ks hk, hn.1, ne_eq, not_false_eq_true, and_self, if_true]
  congr 1
  cases ks with
  | nil => simp [splitBr]
  | cons k ks =>
    have hk0 := hk k (by simp)
    obtain ⟨last, h3, h4⟩ := splitBr_tail k ks hk0 fun k h => hk k (by simp [h])
    have hfm : ((k :: ks).flatMap fun k => '[' :: (k ++ [']'])) = '[' :: (k ++ ']' :: ks.flatMap fun k => '[' :: (k ++ [']'])) := by
      simp
    rw [hfm, splitBr_cons (by simp), h3]
    have hlast : Plain last := by rw [← h4]; exact hk _ (List.getLast_mem _)
    have hdl : ∀ k' ∈ (k :: ks).dropLast, Plain k' := fun k' h => hk k' (List.dropLast_subset _ h)
    have hpl : ∀ k' : Str, Plain k' → rstripBr (k'.dropWhile (· = '[')) = k' := by
      intro k' h
      have := lstrip_plain (fun c hc => (h.2 c hc).2.1) [] h.1
      rw [List.append_nil] at this
      rw [this, rstrip_plain fun c hc => (h.2 c hc).2.2]
    have hcl : rstripBr ((last ++ [']']).dropWhile (· = '[')) = last := by
      rw [lstrip_plain (fun c hc => (hlast.2 c hc).2.1) _ hlast.1, rstrip_closed fun c hc => (hlast.2 c hc).2.2]
    have hks : (k :: ks) = (k :: ks).dropLast ++ [last] := by
      rw [← h4]; exact (List.dropLast_concat_getLast (by simp)).symm
    -- the first piece has an opening bracket in front
    cases hd : (k :: ks).dropLast with
    | nil =>
      rw [hd] at hks
      rw [hks]
      simp only [List.nil_append, List.headD_cons, List.tail_cons, ne_eq, List.filter_cons, reduceCtorEq, not_false_eq_true, decide_true,
        if_true, List.filter_nil, List.map_cons, List.map_nil, List.dropWhile_cons]
      rw [hcl]
    | cons x xs =>
      rw [hd] at hks hdl
      rw [hks]
      have hx := hdl x (by simp)
      have hxs : ∀ k' ∈ xs, Plain k' := fun k' h => hdl k' (by simp [h])
      have hf : (xs ++ [last ++ [']']]).filter (· ≠ []) = xs ++ [last ++ [']']] := by
        rw [List.filter_eq_self]
        intro y hy
        rcases List.mem_append.1 hy with hy | hy
        · simp [(hxs y hy).1]
        · simp only [List.mem_singleton] at hy; simp [hy]
      simp only [List.cons_append, List.headD_cons, List.tail_cons, List.filter_cons, ne_eq, reduceCtorEq, not_false_eq_true,
        decide_true, if_true, List.map_cons, List.dropWhile_cons]
      simp only [ne_eq] at hf
      rw [hf, hpl x hx, List.map_append, List.map_cons, List.map_nil, hcl]
      congr 2
      calc _ = xs.map id := List.map_congr_left fun y hy => hpl y (hxs y hy)
        _ = xs := by simp

/-- Something in brackets, or a name: not empty, without brackets -/
def NoBr (s : Str) : Prop := s ≠ [] ∧ ∀ c ∈ s, c ≠ '[' ∧ c ≠ ']'

theorem acc_sound (l : Str) :
    (accOut l = true → ∃ ks : List Str, (∀ k ∈ ks, NoBr k) ∧ l = ks.flatMap fun k => '[' :: (k ++ [']'])) ∧
    (accIn l = true → ∃ (k : Str) (ks : List Str), (∀ c ∈ k, c ≠ '[' ∧ c ≠ ']') ∧ (∀ k ∈ ks, NoBr k) ∧
      l = k ++ ']' :: ks.flatMap fun k => '[' :: (k ++ [']'])) ∧
    (accOpen l = true → ∃ (k : Str) (ks : List Str), NoBr k ∧ (∀ k ∈ ks, NoBr k) ∧
      l = k ++ ']' :: ks.flatMap fun k => '[' :: (k ++ [']'])) := by
  induction l with
  | nil => exact ⟨fun _ => ⟨[], by simp, rfl⟩, by simp [accIn], by simp [accOpen]⟩
  | cons c l ih =>
    refine ⟨fun h => ?_, fun h => ?_, fun h => ?_⟩
    · simp only [accOut] at h
      split at h
      · rename_i hc
        obtain ⟨k, ks, h1, h2, rfl⟩ := ih.2.2 h
        exact ⟨k :: ks, by simpa using ⟨h1, h2⟩, by simp [hc]⟩
      · cases h
    · simp only [accIn] at h
      split at h
      · rename_i hc
        obtain ⟨ks, h1, rfl⟩ := ih.1 h
        exact ⟨[], ks, by simp, h1, by simp [hc]⟩
      · split at h
        · rename_i hp
          obtain ⟨k, ks, h1, h2, rfl⟩ := ih.2.1 h
          refine ⟨c :: k, ks, ?_, h2, by simp⟩
          simp only [plainChar, Bool.and_eq_true, bne_iff_ne, ne_eq] at hp
          simpa using ⟨hp, h1⟩
        · cases h
    · simp only [accOpen] at h
      split at h
      · rename_i hp
        obtain ⟨k, ks, h1, h2, rfl⟩ := ih.2.1 h
        refine ⟨c :: k, ks, ⟨by simp, ?_⟩, h2, by simp⟩
        simp only [plainChar, Bool.and_eq_true, bne_iff_ne, ne_eq] at hp
        simpa using ⟨hp, h1⟩
      · cases h

/-- **C70.** An alternative that is not of the form `name[key]...[key]` is not cut into parts: then the whole description is the name of a part. -/
theorem C70_malformed (desc option : Str) (h : ∀ (n : Str) (ks : List Str), NoBr n → (∀ k ∈ ks, NoBr k) → option ≠ altText (n, ks)) :
    splitOption desc option = [desc] := by
  unfold splitOption
  refine if_neg fun ⟨h1, h2⟩ => ?_
  obtain ⟨ks, h3, h4⟩ := (acc_sound _).1 h2
  refine h _ ks ⟨h1, fun c hc => ?_⟩ h3 ?_
  · have := List.all_takeWhile (p := plainChar) (l := option)
    have := List.all_eq_true.1 this c hc
    simpa [plainChar] using this
  · show option = option.takeWhile plainChar ++ _
    rw [← h4, List.takeWhile_append_dropWhile]

/-- The hypothesis is met, e.g. by a text with an unclosed bracket, or text after a bracket. -/
example : splitOption "a[b,c".toList "a[b".toList = ["a[b,c".toList] ∧ splitOption "a[b]c".toList "a[b]c".toList = ["a[b]c".toList] := by decide +kernel

/-- **C70.** A field description written as alternatives `name[key]...[key]` separated by commas is understood as these alternatives. -/
theorem C70_split (alts : List (Str × List Str)) (hne : alts ≠ []) (h : ∀ a ∈ alts, Plain a.1 ∧ ∀ k ∈ a.2, Plain k) :
    splitFieldAccess ([','].intercalate (alts.map altText)) = alts.map fun a => a.1 :: a.2 := by
  unfold splitFieldAccess
  rw [List.splitOn_intercalate]
  · rw [List.map_map]
    refine List.map_congr_left fun a ha => ?_
    exact splitOption_text _ a (h a ha).1 (h a ha).2
  · intro l hl
    obtain ⟨a, ha, rfl⟩ := List.mem_map.1 hl
    intro hc
    rcases List.mem_append.1 hc with hc | hc
    · exact ((h a ha).1.2 _ hc).1 rfl
    · obtain ⟨k, hk, hc⟩ := List.mem_flatMap.1 hc
      simp only [List.mem_cons, List.mem_append, List.not_mem_nil, or_false] at hc
      rcases hc with hc | hc | hc
      · simp at hc
      · exact (((h a ha).2 k hk).2 _ hc).1 rfl
      · simp at hc
  · simpa using hne

example : splitFieldAccess "json[a][b],txt,png[0]".toList =
    ["json", "a", "b"].map String.toList :: ["txt"].map String.toList :: [["png", "0"].map String.toList] := by decide +kernel

/-! ## Access -/

theorem dictGet_eq (l : List (Str × Val O)) (k : Str) : dictGet l k = l.lookup k := by
  induction l with
  | nil => rfl
  | cons p l ih =>
    obtain ⟨k', v⟩ := p
    by_cases h : k' = k
    · subst h; simp [dictGet]
    · have : (k == k') = false := by simpa using fun e => h e.symm
      simp [dictGet, List.lookup, h, this, ih]

/-- **C70.** A number in brackets counts from the start of a list, a negative one from its end, as in Python. -/
theorem C70_index (l : List (Val O)) (i : Int) (v : Val O) :
    listGet l i = some v ↔ ∃ n : Nat, l[n]? = some v ∧ (i = n ∨ i = (n : Int) - l.length) := by
  unfold listGet
  constructor
  · intro h
    split at h
    · exact ⟨i.toNat, h, .inl (by omega)⟩
    · split at h
      · exact ⟨_, h, .inr (by omega)⟩
      · cases h
  · rintro ⟨n, hn, rfl | rfl⟩
    · simpa using hn
    · obtain ⟨hlt, -⟩ := List.getElem?_eq_some_iff.1 hn
      rw [if_neg (by omega), if_pos (by omega)]
      have : ((n : Int) - l.length + l.length).toNat = n := by omega
      rw [this]; exact hn

theorem accessOne_iff (int : Str → Option Int) (v : Val O) (f : List Str) (r : Val O) :
    accessOne int v f = .ok r ↔ At int v f r := by
  constructor
  · intro h
    induction f generalizing v with
    | nil =>
      simp only [accessOne, Except.ok.injEq] at h
      subst h; exact .here _
    | cons k ks ih =>
      cases v with
      | dict l =>
        simp only [accessOne] at h
        cases hd : dictGet l k with
        | none => simp [hd] at h
        | some w => simp only [hd] at h; exact .key (by rw [← dictGet_eq]; exact hd) (ih w h)
      | list l =>
        simp only [accessOne] at h
        cases hi : int k with
        | none => simp [hi] at h
        | some i =>
          simp only [hi] at h
          cases hd : listGet l i with
          | none => simp [hd] at h
          | some w =>
            simp only [hd] at h
            obtain ⟨n, hn, hi'⟩ := (C70_index ..).1 hd
            exact .pos hi hn hi' (ih w h)
      | other o => simp [accessOne] at h
  · intro h
    induction h with
    | here v => simp [accessOne]
    | key hd _ ih => rw [← dictGet_eq] at hd; simpa [accessOne, hd] using ih
    | pos hi hn hi' _ ih => simpa [accessOne, hi, (C70_index ..).2 ⟨_, hn, hi'⟩] using ih

/-- **C70.** The value of a field is the one of the first alternative that exists in the sample. -/
theorem C70_first (int : Str → Option Int) (v : Val O) (fs : List (List Str)) (r : Val O) :
    fieldAccess int v fs = .ok r ↔
      ∃ pre f post, fs = pre ++ f :: post ∧ At int v f r ∧ ∀ g ∈ pre, ∀ r', ¬ At int v g r' := by
  induction fs with
  | nil => simp [fieldAccess]
  | cons f fs ih =>
    have hno : ∀ {e : FErr}, accessOne int v f = .error e → ∀ r', ¬ At int v f r' := by
      intro e he r' h
      rw [← accessOne_iff, he] at h
      exact absurd h (by simp)
    have key : fieldAccess int v (f :: fs) = .ok r ↔
        accessOne int v f = .ok r ∨ ((∃ e, accessOne int v f = .error e) ∧ fieldAccess int v fs = .ok r) := by
      cases fs with
      | nil =>
        simp only [fieldAccess, reduceCtorEq, and_false, or_false]
      | cons g fs =>
        simp only [fieldAccess]
        cases ha : accessOne int v f with
        | ok w => simp
        | error e => simp
    rw [key, ih]
    constructor
    · rintro (h | ⟨⟨e, he⟩, pre, f', post, rfl, h1, h2⟩)
      · exact ⟨[], f, fs, rfl, (accessOne_iff ..).1 h, by simp⟩
      · refine ⟨f :: pre, f', post, rfl, h1, ?_⟩
        intro g hg
        rcases List.mem_cons.1 hg with rfl | hg
        · exact hno he
        · exact h2 g hg
    · rintro ⟨pre, f', post, h0, h1, h2⟩
      cases pre with
      | nil =>
        simp only [List.nil_append, List.cons.injEq] at h0
        obtain ⟨rfl, rfl⟩ := h0
        exact .inl ((accessOne_iff ..).2 h1)
      | cons g pre =>
        simp only [List.cons_append, List.cons.injEq] at h0
        obtain ⟨rfl, rfl⟩ := h0
        right
        refine ⟨?_, pre, f', post, rfl, h1, fun g hg => h2 g (by simp [hg])⟩
        cases ha : accessOne int v f with
        | ok w => exact absurd ((accessOne_iff ..).1 ha) (h2 f (by simp) w)
        | error e => exact ⟨e, rfl⟩

/-- **C70.** Loading a field fails exactly if none of the alternatives exists. -/
theorem C70_fails (int : Str → Option Int) (v : Val O) (fs : List (List Str)) :
    (∃ e, fieldAccess int v fs = .error e) ↔ ∀ f ∈ fs, ∀ r, ¬ At int v f r := by
  constructor
  · rintro ⟨e, he⟩ f hf r hr
    -- the first one that exists
    have : ∀ fs : List (List Str), f ∈ fs → ∃ r pre g post, fs = pre ++ g :: post ∧ At int v g r ∧ ∀ g ∈ pre, ∀ r', ¬ At int v g r' := by
      intro fs hf
      induction fs with
      | nil => cases hf
      | cons g fs ih =>
        by_cases hg : ∃ r, At int v g r
        · obtain ⟨r, hg⟩ := hg
          exact ⟨r, [], g, fs, rfl, hg, by simp⟩
        · have hne : f ≠ g := by rintro rfl; exact hg ⟨r, hr⟩
          obtain ⟨r', pre, g', post, h0, h1, h2⟩ := ih (by simpa [hne] using hf)
          refine ⟨r', g :: pre, g', post, by simp [h0], h1, ?_⟩
          intro g'' hg''
          rcases List.mem_cons.1 hg'' with rfl | h
          · exact fun r' h => hg ⟨r', h⟩
          · exact h2 _ h
    obtain ⟨r', h⟩ := this fs hf
    rw [(C70_first int v fs r').2 h] at he
    cases he
  · intro h
    cases ha : fieldAccess int v fs with
    | error e => exact ⟨e, rfl⟩
    | ok r =>
      obtain ⟨pre, f, post, rfl, h1, _⟩ := (C70_first ..).1 ha
      exact absurd h1 (h f (by simp) r)

/-! ## Only the needed parts are read -/

theorem dictGet_filter (keep : Str → Bool) (l : List (Str × Val O)) (k : Str) (hk : keep k = true) :
    dictGet (l.filter fun p => keep p.1) k = dictGet l k := by
  induction l with
  | nil => rfl
  | cons p l ih =>
    obtain ⟨k', v⟩ := p
    by_cases h : k' = k
    · subst h; simp [List.filter_cons, hk, dictGet]
    · cases hp : keep k' <;> simp [List.filter_cons, hp, dictGet, h, ih]

theorem accessOne_filter (int : Str → Option Int) (keep : Str → Bool) (l : List (Str × Val O)) (k : Str) (ks : List Str)
    (hk : keep k = true) :
    accessOne int (.dict (l.filter fun p => keep p.1)) (k :: ks) = accessOne int (.dict l) (k :: ks) := by
  simp only [accessOne, dictGet_filter keep l k hk]

theorem fieldAccess_filter (int : Str → Option Int) (keep : Str → Bool) (l : List (Str × Val O)) (fs : List (List Str))
    (h : ∀ f ∈ fs, f ≠ [] ∧ keep (f.headD []) = true) :
    fieldAccess int (.dict (l.filter fun p => keep p.1)) fs = fieldAccess int (.dict l) fs := by
  induction fs with
  | nil => rfl
  | cons f fs ih =>
    have hf : accessOne int (.dict (l.filter fun p => keep p.1)) f = accessOne int (.dict l) f := by
      obtain ⟨h1, h2⟩ := h f (by simp)
      cases f with
      | nil => exact absurd rfl h1
      | cons k ks => exact accessOne_filter int keep l k ks h2
    cases fs with
    | nil => simpa [fieldAccess] using hf
    | cons g fs =>
      simp only [fieldAccess, hf, ih fun g hg => h g (by simp [hg])]

theorem splitOption_ne_nil (desc option : Str) : splitOption desc option ≠ [] := by
  simp only [splitOption]; split <;> simp

theorem mapFields_filter (int : Str → Option Int) (keep : Str → Bool) (l : List (Str × Val O)) (m : List (Str × Str))
    (h : ∀ k ∈ neededParts m, keep k = true) :
    mapFields int (.dict (l.filter fun p => keep p.1)) m = mapFields int (.dict l) m := by
  induction m with
  | nil => rfl
  | cons kd m ih =>
    obtain ⟨k, d⟩ := kd
    have hf := fieldAccess_filter int keep l (splitFieldAccess d) (by
      intro f hf
      refine ⟨?_, h _ ?_⟩
      · obtain ⟨o, _, rfl⟩ := List.mem_map.1 hf
        exact splitOption_ne_nil _ _
      · simp only [neededParts, List.flatMap_cons, List.mem_append]
        exact .inl (List.mem_map_of_mem hf))
    have hm := ih fun k hk => h k (by
      simp only [neededParts, List.flatMap_cons, List.mem_append]
      exact .inr hk)
    simp only [mapFields, hf, hm]

/-- **C70.** Reading only the parts named by the field map from the tar file does not change the loaded sample: the same result (or
exception) for every sample, whatever other parts are skipped. -/
theorem C70_parts (int : Str → Option Int) (cls : List FieldDecl) (sample : List (Str × Val O)) (m : List (Str × Str))
    (subflavor subflavors : Val O) (keep : Str → Bool) (h : ∀ k ∈ neededParts m, keep k = true)
    (hk : keep keyName = true) (hr : keep restoreKeyName = true) :
    loadSample int cls (sample.filter fun p => keep p.1) m subflavor subflavors =
      loadSample int cls sample m subflavor subflavors := by
  simp only [loadSample, sampleArgs, dictGet_filter keep sample _ hk, dictGet_filter keep sample _ hr, mapFields_filter int keep sample m h]

/-! ## The loaded sample -/

theorem dictGet_setKey (a : List (Str × Val O)) (k : Str) (v : Val O) (x : Str) :
    dictGet (setKey a k v) x = if x = k then some v else dictGet a x := by
  induction a with
  | nil =>
    by_cases h : x = k
    · subst h; simp [setKey, dictGet]
    · simp [setKey, dictGet, h, Ne.symm h]
  | cons p a ih =>
    obtain ⟨k', w⟩ := p
    simp only [setKey]
    by_cases hk : k' = k
    · subst hk
      by_cases h : k' = x
      · subst h; simp [dictGet]
      · simp [dictGet, h, Ne.symm h]
    · simp only [hk, if_false, dictGet]
      by_cases h : k' = x
      · subst h; simp [hk]
      · simp [h, ih]

theorem dictGet_setKeys (a b : List (Str × Val O)) (x : Str) (hb : (b.map (·.1)).Nodup) :
    dictGet (setKeys a b) x = (dictGet b x).or (dictGet a x) := by
  induction b generalizing a with
  | nil => simp [setKeys, dictGet]
  | cons p b ih =>
    obtain ⟨k, v⟩ := p
    simp only [List.map_cons, List.nodup_cons] at hb
    have : setKeys a ((k, v) :: b) = setKeys (setKey a k v) b := rfl
    rw [this, ih _ hb.2, dictGet_setKey]
    by_cases h : x = k
    · subst h
      have hn : dictGet b x = none := by
        have : ∀ b : List (Str × Val O), x ∉ b.map (·.1) → dictGet b x = none := by
          intro b hb
          induction b with
          | nil => rfl
          | cons p b ih =>
            simp only [List.map_cons, List.mem_cons, not_or] at hb
            simp [dictGet, Ne.symm hb.1, ih hb.2]
        exact this b hb.1
      simp [hn, dictGet]
    · simp [h, dictGet, Ne.symm h]

theorem setKey_names (a : List (Str × Val O)) (k : Str) (v : Val O) (x : Str) :
    x ∈ (setKey a k v).map (·.1) ↔ x ∈ a.map (·.1) ∨ x = k := by
  induction a with
  | nil => simp [setKey]
  | cons p a ih =>
    obtain ⟨k', w⟩ := p
    simp only [setKey]
    by_cases h : k' = k
    · subst h; simp only [if_true, List.map_cons, List.mem_cons]; tauto
    · simp only [h, if_false, List.map_cons, List.mem_cons, ih]; tauto

/-- the names of the arguments -/
theorem setKeys_names (a b : List (Str × Val O)) (x : Str) :
    x ∈ (setKeys a b).map (·.1) ↔ x ∈ a.map (·.1) ∨ x ∈ b.map (·.1) := by
  induction b generalizing a with
  | nil => simp [setKeys]
  | cons p b ih =>
    have : setKeys a (p :: b) = setKeys (setKey a p.1 p.2) b := rfl
    rw [this, ih, setKey_names]
    simp only [List.map_cons, List.mem_cons]; tauto

theorem mapFields_get (int : Str → Option Int) (v : Val O) (m : List (Str × Str)) (fs : List (Str × Val O))
    (h : mapFields int v m = .ok fs) :
    fs.map (·.1) = m.map (·.1) ∧
      ((m.map (·.1)).Nodup → ∀ k d, (k, d) ∈ m → ∃ r, dictGet fs k = some r ∧ fieldAccess int v (splitFieldAccess d) = .ok r) := by
  induction m generalizing fs with
  | nil => simp only [mapFields, Except.ok.injEq] at h; subst h; simp
  | cons kd m ih =>
    obtain ⟨k, d⟩ := kd
    simp only [mapFields] at h
    cases hf : fieldAccess int v (splitFieldAccess d) with
    | error e => simp [hf] at h
    | ok r =>
      cases hm : mapFields int v m with
      | error e => simp [hf, hm] at h
      | ok gs =>
        simp only [hf, hm, Except.ok.injEq] at h
        subst h
        obtain ⟨h1, h2⟩ := ih gs hm
        refine ⟨by simp [h1], ?_⟩
        intro hn k' d' hmem
        simp only [List.map_cons, List.nodup_cons] at hn
        rcases List.mem_cons.1 hmem with he | hmem
        · obtain ⟨rfl, rfl⟩ := Prod.mk.injEq .. ▸ he
          exact ⟨r, by simp [dictGet], hf⟩
        · have hne : k ≠ k' := by
            rintro rfl
            exact hn.1 (List.mem_map.2 ⟨(k, d'), hmem, rfl⟩)
          obtain ⟨r', h3, h4⟩ := h2 hn.2 k' d' hmem
          exact ⟨r', by simp [dictGet, hne, h3], h4⟩

/-- **C70.** A loaded sample: each mapped field has the value found by its description, the restore key is the one of the file (whatever the
field map says), the subflavors are those of the dataset, and the key is the key of the file if it is not mapped. -/
theorem C70_sample (int : Str → Option Int) (cls : List FieldDecl) (sample : List (Str × Val O)) (m : List (Str × Str))
    (hm : (m.map (·.1)).Nodup) (subflavor subflavors : Val O) (args : List (Str × Val O))
    (h : loadSample int cls sample m subflavor subflavors = .ok args) :
    (∀ k d, (k, d) ∈ m → k ∉ [restoreKeyName, subflavorName, subflavorsName] →
      ∃ r, dictGet args k = some r ∧ fieldAccess int (.dict sample) (splitFieldAccess d) = .ok r) ∧
    dictGet args restoreKeyName = dictGet sample restoreKeyName ∧
    dictGet args subflavorName = some subflavor ∧ dictGet args subflavorsName = some subflavors ∧
    (keyName ∉ m.map (·.1) → dictGet args keyName = dictGet sample keyName) := by
  simp only [loadSample] at h
  cases hs : sampleArgs int sample m subflavor subflavors with
  | error e => simp [hs] at h
  | ok args' =>
    simp only [hs] at h
    split at h
    · simp only [Except.ok.injEq] at h
      subst h
      simp only [sampleArgs] at hs
      cases hk : dictGet sample keyName with
      | none => simp [hk] at hs
      | some key =>
      cases hf : mapFields int (.dict sample) m with
      | error e => simp [hk, hf] at hs
      | ok fs =>
      cases hr : dictGet sample restoreKeyName with
      | none => simp [hk, hf, hr] at hs
      | some rk =>
      simp only [hk, hf, hr, Except.ok.injEq] at hs
      subst hs
      obtain ⟨h1, h2⟩ := mapFields_get int _ m fs hf
      have hfs : (fs.map (·.1)).Nodup := by rw [h1]; exact hm
      have hsp : ([(restoreKeyName, rk), (subflavorName, subflavor), (subflavorsName, subflavors)].map (·.1)).Nodup := by
        simp only [List.map_cons, List.map_nil]; decide
      have get := fun x => dictGet_setKeys (setKeys [(keyName, key)] fs)
        [(restoreKeyName, rk), (subflavorName, subflavor), (subflavorsName, subflavors)] x hsp
      have d1 : restoreKeyName ≠ subflavorName := by decide
      have d2 : restoreKeyName ≠ subflavorsName := by decide
      have d3 : subflavorName ≠ subflavorsName := by decide
      have d4 : keyName ≠ restoreKeyName := by decide
      have d5 : keyName ≠ subflavorName := by decide
      have d6 : keyName ≠ subflavorsName := by decide
      refine ⟨?_, ?_, ?_, ?_, ?_⟩
      · intro k d hkd hns
        simp only [List.mem_cons, List.not_mem_nil, or_false, not_or] at hns
        obtain ⟨r, h3, h4⟩ := h2 hm k d hkd
        refine ⟨r, ?_, h4⟩
        rw [get, dictGet_setKeys _ _ _ hfs, h3]
        simp [dictGet, Ne.symm hns.1, Ne.symm hns.2.1, Ne.symm hns.2.2]
      · rw [get]; simp [dictGet]
      · rw [get]; simp [dictGet, d1]
      · rw [get]; simp [dictGet, d2, d3]
      · intro hkm
        have : dictGet fs keyName = none := by
          have : ∀ b : List (Str × Val O), keyName ∉ b.map (·.1) → dictGet b keyName = none := by
            intro b hb
            induction b with
            | nil => rfl
            | cons p b ih =>
              simp only [List.map_cons, List.mem_cons, not_or] at hb
              simp [dictGet, Ne.symm hb.1, ih hb.2]
          exact this fs (by rw [h1]; exact hkm)
        rw [get, dictGet_setKeys _ _ _ hfs, this]
        simp [dictGet, Ne.symm d4, Ne.symm d5, Ne.symm d6]
    · cases h

/-! ## C71: the check of the field map -/

/-- The field has to be given a value. -/
def FieldDecl.required (f : FieldDecl) : Prop := f.default = false ∧ f.factory = false

/-- The names set by the loader itself -/
def ownNames : List Str := [keyName, restoreKeyName, subflavorName, subflavorsName]

/-- **C71** in full: a field map is accepted only if every required field of the sample type gets a value and all its names are fields of the type. -/
def C71_statement : Prop :=
  ∀ (cls : List FieldDecl) (m : List (Str × Str)), acceptMap cls m = true →
    (∀ kv ∈ m, ∃ f ∈ cls, f.name = kv.1) ∧ ∀ f ∈ cls, f.required → f.name ∈ ownNames ∨ f.name ∈ m.map (·.1)

theorem acceptMap_iff (cls : List FieldDecl) (m : List (Str × Str)) :
    acceptMap cls m = true ↔ ∀ kv ∈ m, ∃ f ∈ cls, f.name = kv.1 := by
  have : ∀ f : FieldDecl, (f.default && f.factory) = false := by
    intro f
    have := f.ok
    cases hd : f.default <;> cases hf : f.factory <;> simp_all
  simp [acceptMap, this]

/-- **C71 is false of the code**: the condition for required fields asks for fields that have both a default value and a default factory, of which
there are none. -/
theorem C71_violated : ¬ C71_statement := by
  intro h
  have := (h [⟨"image".toList, false, false, by simp⟩, ⟨"text".toList, false, false, by simp⟩] [("image".toList, "png".toList)]
    (by decide +kernel)).2 ⟨"text".toList, false, false, by simp⟩ (by simp) ⟨rfl, rfl⟩
  revert this
  decide

/-- ... and then no sample at all can be loaded. -/
theorem C71_violated_no_sample :
    ∃ (cls : List FieldDecl) (m : List (Str × Str)), acceptMap cls m = true ∧
      ∀ (int : Str → Option Int) (sample : List (Str × Val Unit)) (a b : Val Unit), ∃ e, loadSample int cls sample m a b = .error e := by
  refine ⟨[⟨keyName, false, false, by simp⟩, ⟨restoreKeyName, false, false, by simp⟩, ⟨subflavorName, true, false, by simp⟩,
    ⟨subflavorsName, true, false, by simp⟩, ⟨"image".toList, false, false, by simp⟩, ⟨"text".toList, false, false, by simp⟩],
    [("image".toList, "png".toList)], by decide +kernel, ?_⟩
  intro int sample a b
  simp only [loadSample, sampleArgs]
  cases dictGet sample keyName with
  | none => exact ⟨_, rfl⟩
  | some k =>
  cases hf : mapFields int (.dict sample) [("image".toList, "png".toList)] with
  | error e => exact ⟨_, rfl⟩
  | ok fs =>
  cases dictGet sample restoreKeyName with
  | none => exact ⟨_, rfl⟩
  | some rk =>
  simp only
  obtain ⟨h1, _⟩ := mapFields_get int _ _ fs hf
  obtain ⟨v, rfl⟩ : ∃ v, fs = [("image".toList, v)] := by
    match fs, h1 with
    | [(x, v)], h1 =>
      simp only [List.map_cons, List.map_nil, List.cons.injEq, and_true] at h1
      exact ⟨v, by rw [h1]⟩
  refine ⟨.type, ?_⟩
  rw [if_neg]
  intro hc
  simp only [Bool.and_eq_true, List.all_eq_true] at hc
  have := hc.2 ⟨"text".toList, false, false, by simp⟩ (by simp)
  simp only [Bool.or_self, Bool.false_or, List.any_eq_true, beq_iff_eq] at this
  obtain ⟨p, hp, he⟩ := this
  have hp := List.mem_map_of_mem (f := (·.1)) hp
  rw [he, setKeys_names, setKeys_names] at hp
  simp only [List.map_cons, List.map_nil, List.mem_cons, List.not_mem_nil, or_false] at hp
  revert hp
  decide

/-- **C71, the part that holds.** A field map is accepted exactly if all its names are fields of the sample type. If moreover the required fields are
mapped, the constructor of the sample type never fails: a sample is loaded unless a part is missing in the file.
Missing for the full property: the check that the required fields are mapped. -/
theorem C71_accept_partial (cls : List FieldDecl) (m : List (Str × Str)) :
    (acceptMap cls m = true ↔ ∀ kv ∈ m, ∃ f ∈ cls, f.name = kv.1) ∧
    (acceptMap cls m = true → (∀ k ∈ ownNames, ∃ f ∈ cls, f.name = k) →
      (∀ f ∈ cls, f.required → f.name ∈ ownNames ∨ f.name ∈ m.map (·.1)) →
      ∀ (int : Str → Option Int) (sample : List (Str × Val O)) (a b : Val O), loadSample int cls sample m a b ≠ .error .type) := by
  refine ⟨acceptMap_iff cls m, ?_⟩
  intro hacc hown hreq int sample a b
  rw [acceptMap_iff] at hacc
  simp only [loadSample, sampleArgs]
  cases dictGet sample keyName with
  | none => simp
  | some k =>
  cases hf : mapFields int (.dict sample) m with
  | error e => simp
  | ok fs =>
  cases dictGet sample restoreKeyName with
  | none => simp
  | some rk =>
  simp only
  obtain ⟨h1, _⟩ := mapFields_get int _ _ fs hf
  have hin : ∀ x, x ∈ (setKeys (setKeys [(keyName, k)] fs) [(restoreKeyName, rk), (subflavorName, a), (subflavorsName, b)]).map (·.1) ↔
      x ∈ ownNames ∨ x ∈ m.map (·.1) := by
    intro x
    rw [setKeys_names, setKeys_names, h1]
    simp only [List.map_cons, List.map_nil, ownNames, List.mem_cons, List.not_mem_nil, or_false]
    tauto
  generalize setKeys (setKeys [(keyName, k)] fs) [(restoreKeyName, rk), (subflavorName, a), (subflavorsName, b)] = args at hin
  rw [if_pos]
  · simp
  · simp only [Bool.and_eq_true, List.all_eq_true, List.any_eq_true, beq_iff_eq, Bool.or_eq_true]
    constructor
    · intro p hp
      rcases (hin p.1).1 (List.mem_map_of_mem hp) with h | h
      · exact hown _ h
      · obtain ⟨kv, hkv, he⟩ := List.mem_map.1 h
        obtain ⟨f, hf, hn⟩ := hacc kv hkv
        exact ⟨f, hf, hn.trans he⟩
    · intro f hf
      cases hd : f.default
      · cases hfa : f.factory
        · right
          have := (hin f.name).2 (hreq f hf ⟨hd, hfa⟩)
          obtain ⟨p, hp, he⟩ := List.mem_map.1 this
          exact ⟨p, hp, he⟩
        · left; right; rfl
      · left; left; rfl

/-- The leaf at the top of a value (for the example) -/
def leaf : Val Nat → Nat
  | .other o => o
  | _ => 0

/-- A case for the theorems: a captioning sample from `jpg` and `json`. -/
example : (loadSample (O := Nat) (fun _ => none)
    [⟨keyName, false, false, by simp⟩, ⟨restoreKeyName, false, false, by simp⟩, ⟨subflavorName, true, false, by simp⟩,
      ⟨subflavorsName, true, false, by simp⟩, ⟨"image".toList, false, false, by simp⟩, ⟨"caption".toList, false, false, by simp⟩]
    [(keyName, .other 7), ("jpg".toList, .other 8), ("json".toList, .dict [("cap".toList, .other 9)]), (restoreKeyName, .other 10)]
    [("image".toList, "png,jpg".toList), ("caption".toList, "json[cap]".toList)] (.other 11) (.other 12)).toOption.map (·.map fun p => (p.1, leaf p.2)) =
    some [(keyName, 7), ("image".toList, 8), ("caption".toList, 9), (restoreKeyName, 10), (subflavorName, 11), (subflavorsName, 12)] := by
  decide +kernel

end Verif.Config
