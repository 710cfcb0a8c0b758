import Verif.Message.Model
import Mathlib.Tactic.Ring
import Mathlib.Tactic.Linarith

/-! # C120: messages of errors are short - for plain values -/

namespace Verif.Message

variable {q : Text → Text}

/-! ## Specification -/

mutual
/-- Texts of any length, dicts and lists of any size and depth, keys of at most `K` characters not beginning with `__`; everything else has a `repr` of at most `L` characters. -/
inductive Val.Plain (K L : Nat) : Val → Prop where
  | dict {l : List (Key × Val)} : PairsPlain K L l → Val.Plain K L (.dict l)
  | list {l : List Val} : AllPlain K L l → Val.Plain K L (.list l)
  | str {t : Text} : Val.Plain K L (.str t)
  | other {r : Text} : r.length ≤ L → Val.Plain K L (.other r)

inductive PairsPlain (K L : Nat) : List (Key × Val) → Prop where
  | nil : PairsPlain K L []
  | cons {k : Key} {v : Val} {l : List (Key × Val)} : k.special = false → k.str'.length ≤ K → Val.Plain K L v → PairsPlain K L l → PairsPlain K L ((k, v) :: l)

inductive AllPlain (K L : Nat) : List Val → Prop where
  | nil : AllPlain K L []
  | cons {v : Val} {l : List Val} : Val.Plain K L v → AllPlain K L l → AllPlain K L (v :: l)
end

/-- `repr` of a text writes at most ten characters for one (`\U000e0001`) and two quotes. -/
def Quotes (q : Text → Text) : Prop := ∀ t, (q t).length ≤ 10 * t.length + 2

/-- The longest text `compact_str` may write. -/
def bound (K L items len : Nat) : Nat → Nat
  | 0 => 10 * (len + 3) + 7 + L
  | d + 1 => 10 * (len + 3) + 7 + L + items * (K + 4 + bound K L items len d)

/-! ## Proofs -/

theorem join_length (l : List Text) (B : Nat) (h : ∀ t ∈ l, t.length ≤ B) : (join l).length ≤ l.length * (B + 2) := by
  induction l with
  | nil => simp [join]
  | cons t l ih =>
    have ht := h t (by simp)
    have hl := ih fun u hu => h u (by simp [hu])
    cases l with
    | nil => simp only [join, List.length_singleton]; omega
    | cons u l =>
      simp only [join, List.length_append, List.length_cons, List.length_nil] at hl ⊢
      rw [Nat.add_mul (l.length + 1) 1 (B + 2)]
      omega

theorem compactPairs_count (items len d : Nat) (left : Nat) (l : List (Key × Val)) : (compactPairs q items len d left l).length ≤ left := by
  induction l generalizing left with
  | nil => cases left <;> simp [compactPairs]
  | cons p l ih =>
    obtain ⟨k, v⟩ := p
    cases left with
    | zero => simp [compactPairs]
    | succ left => simpa [compactPairs] using ih left

theorem compactAll_count (items len d : Nat) (left : Nat) (l : List Val) : (compactAll q items len d left l).length ≤ left := by
  induction l generalizing left with
  | nil => cases left <;> simp [compactAll]
  | cons v l ih =>
    cases left with
    | zero => simp [compactAll]
    | succ left => simpa [compactAll] using ih left

theorem str_length (hq : Quotes q) (len : Nat) (t : Text) : (if len < t.length then q (t.take len ++ ['.', '.', '.']) else q t).length ≤ 10 * (len + 3) + 2 := by
  split
  · refine (hq _).trans ?_
    simp only [List.length_append, List.length_take, List.length_cons, List.length_nil]
    omega
  · have := hq t
    omega

theorem compact_length (hq : Quotes q) (K L items len : Nat) : ∀ (d : Nat),
    (∀ v, Val.Plain K L v → (compact q items len d v).length ≤ bound K L items len d) := by
  intro d
  induction d with
  | zero =>
    intro v hv
    cases hv with
    | dict _ => simp only [compact, bound, List.length_cons, List.length_nil]; omega
    | list _ => simp only [compact, bound, List.length_cons, List.length_nil]; omega
    | str => have := str_length hq len ‹Text›; simp only [compact, bound]; omega
    | other h => simp only [compact, bound]; omega
  | succ d ih =>
    intro v hv
    cases hv with
    | @dict l h =>
      have key : ∀ (left : Nat) (l : List (Key × Val)), PairsPlain K L l → ∀ t ∈ compactPairs q items len d left l, t.length ≤ K + 2 + bound K L items len d := by
        intro left l
        induction l generalizing left with
        | nil => intro _ t ht; cases left <;> simp [compactPairs] at ht
        | cons p l ihl =>
          intro h t ht
          cases h with
          | @cons k v _ hs hk hv hl =>
            cases left with
            | zero => simp [compactPairs] at ht
            | succ left =>
              rw [compactPairs, hs, List.mem_cons] at ht
              rcases ht with rfl | ht
              · have := ih v hv
                simp only [Bool.false_eq_true, if_false, List.length_append, List.length_cons, List.length_nil]
                omega
              · exact ihl left hl t ht
      have h1 := join_length _ _ (key items l h)
      have h2 : (compactPairs q items len d items l).length * (K + 2 + bound K L items len d + 2) ≤ items * (K + 2 + bound K L items len d + 2) :=
        Nat.mul_le_mul_right _ (compactPairs_count items len d items l)
      rw [show K + 2 + bound K L items len d + 2 = K + 4 + bound K L items len d by omega] at h1 h2
      simp only [compact, bound, List.length_append, List.length_cons, List.length_nil]
      omega
    | @list l h =>
      have key : ∀ (left : Nat) (l : List Val), AllPlain K L l → ∀ t ∈ compactAll q items len d left l, t.length ≤ K + 2 + bound K L items len d := by
        intro left l
        induction l generalizing left with
        | nil => intro _ t ht; cases left <;> simp [compactAll] at ht
        | cons v l ihl =>
          intro h t ht
          cases h with
          | cons hv hl =>
            cases left with
            | zero => simp [compactAll] at ht
            | succ left =>
              rw [compactAll, List.mem_cons] at ht
              rcases ht with rfl | ht
              · have := ih v hv
                omega
              · exact ihl left hl t ht
      have h1 := join_length _ _ (key items l h)
      have h2 : (compactAll q items len d items l).length * (K + 2 + bound K L items len d + 2) ≤ items * (K + 2 + bound K L items len d + 2) :=
        Nat.mul_le_mul_right _ (compactAll_count items len d items l)
      rw [show K + 2 + bound K L items len d + 2 = K + 4 + bound K L items len d by omega] at h1 h2
      simp only [compact, bound, List.length_append, List.length_cons, List.length_nil]
      omega
    | str => have := str_length hq len ‹Text›; simp only [compact, bound]; omega
    | other h => simp only [compact, bound]; omega

/-! ## The property -/

/-- **C120, short.** For plain values, however large the dicts, lists and texts in them are, and however deep they are nested, the text is at most `bound` characters long. Missing: keys beginning with `__` and other values
(false: `C120_violated_bytes`, `C120_violated_special`). -/
theorem C120_short_partial (hq : Quotes q) (K L items len depth : Nat) (v : Val) (h : v.Plain K L) : (compact q items len depth v).length ≤ bound K L items len depth :=
  compact_length hq K L items len depth v h

theorem fromSample_length (q : Text → Text) (v : Val) : (fromSample q v).length = 14 + (compact q 10 50 3 v).length := by
  have e1 : "Sample ".toList.length = 7 := by decide +kernel
  have e2 : " failed".toList.length = 7 := by decide +kernel
  unfold fromSample
  rw [List.length_append, List.length_append, e1, e2]
  omega

/-- With the defaults: keys of at most 40 characters, other values of at most 40. -/
theorem C120_default_partial (hq : Quotes q) (v : Val) (h : v.Plain 40 40) : (fromSample q v).length ≤ 700000 := by
  have h1 := C120_short_partial hq 40 40 10 50 3 v h
  have h2 : bound 40 40 10 50 3 = 689887 := by decide +kernel
  have h3 := fromSample_length q v
  omega

mutual
/-- The value without what is below the depth. -/
def cut : Nat → Val → Val
  | 0, .dict _ => .dict []
  | 0, .list _ => .list []
  | d + 1, .dict l => .dict (cutPairs d l)
  | d + 1, .list l => .list (cutAll d l)
  | _, .str t => .str t
  | _, .other r => .other r

def cutPairs (d : Nat) : List (Key × Val) → List (Key × Val)
  | [] => []
  | (k, v) :: l => (k, if k.special then v else cut d v) :: cutPairs d l

def cutAll (d : Nat) : List Val → List Val
  | [] => []
  | v :: l => cut d v :: cutAll d l
end

/-- **C120, depth.** What is more than `depth` levels deep is not looked at, except below keys beginning with `__`. -/
theorem C120_depth (items len depth : Nat) (v : Val) : compact q items len depth v = compact q items len depth (cut depth v) := by
  induction depth generalizing v with
  | zero => cases v <;> simp [cut, compact]
  | succ d ih =>
    cases v with
    | str t => rfl
    | other r => rfl
    | dict l =>
      have key : ∀ left, compactPairs q items len d left l = compactPairs q items len d left (cutPairs d l) := by
        intro left
        induction l generalizing left with
        | nil => rfl
        | cons p l ihl =>
          obtain ⟨k, v⟩ := p
          cases left with
          | zero => simp [compactPairs]
          | succ left =>
            rw [cutPairs, compactPairs, compactPairs, ihl left]
            cases k.special with
            | true => rfl
            | false => simp only [Bool.false_eq_true, if_false, ← ih v]
      rw [cut, compact, compact, key]
    | list l =>
      have key : ∀ left, compactAll q items len d left l = compactAll q items len d left (cutAll d l) := by
        intro left
        induction l generalizing left with
        | nil => rfl
        | cons v l ihl =>
          cases left with
          | zero => simp [compactAll]
          | succ left => rw [cutAll, compactAll, compactAll, ihl left, ← ih v]
      rw [cut, compact, compact, key]

/-- **C120, items.** Only the first `items` entries of a list are shown, in order. -/
theorem C120_items (items len d : Nat) (l : List Val) : compact q items len (d + 1) (.list l) = compact q items len (d + 1) (.list (l.take items)) := by
  have key : ∀ left (l : List Val), compactAll q items len d left l = compactAll q items len d left (l.take left) := by
    intro left
    induction left with
    | zero => intro l; simp [compactAll]
    | succ left ih =>
      intro l
      cases l with
      | nil => rfl
      | cons v l => rw [List.take_succ_cons, compactAll, compactAll, ← ih]
  rw [compact, compact, key]

/-- Small values are written completely: if nothing is cut off, a list of texts is written as `repr` would. -/
theorem C120_complete (items len d : Nat) (l : List Text) (hl : l.length ≤ items) (ht : ∀ t ∈ l, t.length ≤ len) :
    compact q items len (d + 1) (.list (l.map .str)) = repr q (.list (l.map .str)) := by
  have key : ∀ left, l.length ≤ left → compactAll q items len d left (l.map .str) = reprAll q (l.map .str) := by
    clear hl
    induction l with
    | nil => intro left _; cases left <;> simp [compactAll, reprAll]
    | cons t l ih =>
      intro left h
      cases left with
      | zero => simp at h
      | succ left =>
        have h1 := ht t (by simp)
        rw [List.map_cons, compactAll, reprAll, ih (fun u hu => ht u (by simp [hu])) left (by simpa using h)]
        cases d <;> simp only [compact, repr, if_neg (Nat.not_lt.2 h1)]
  rw [compact, repr, key items hl]

/-- **C120 is violated** by values that are neither dict, list nor text: the bytes of a picture, a tuple, or a sample class are written completely. -/
theorem C120_violated_bytes (r : Text) : (fromSample q (.dict [(.str ['j', 'p', 'g'], .other r)])).length ≥ r.length ∧ (fromSample q (.other r)).length ≥ r.length := by
  rw [fromSample_length, fromSample_length]
  have hs : (Key.str ['j', 'p', 'g']).special = false := by decide
  have h1 : (compact q 10 50 3 (.other r)).length = r.length := by rw [compact]
  have h2 : (compact q 10 50 3 (.dict [(.str ['j', 'p', 'g'], .other r)])).length ≥ r.length := by
    simp only [compact, compactPairs, hs, join, Bool.false_eq_true, if_false, List.length_append]
    omega
  omega

/-- **C120 is violated** by keys beginning with `__`: their values are written completely, a list of any length. -/
theorem C120_violated_special (n : Nat) : (fromSample q (.dict [(.str ['_', '_', 's'], .list (List.replicate n (.other ['0'])))])).length ≥ n := by
  have key : ∀ n, (join (reprAll q (List.replicate n (.other ['0'])))).length ≥ n := by
    intro n
    induction n with
    | zero => omega
    | succ n ih =>
      cases n with
      | zero => simp [reprAll, repr, join]
      | succ n =>
        rw [List.replicate_succ, List.replicate_succ, reprAll, reprAll, join, List.length_append, List.length_append]
        rw [List.replicate_succ, reprAll] at ih
        simp only [repr, List.length_cons, List.length_nil] at ih ⊢
        omega
  have hs : (Key.str ['_', '_', 's']).special = true := by decide
  have h := key n
  rw [fromSample_length]
  simp only [compact, compactPairs, hs, if_true, join, repr, List.length_append]
  omega

/-! ## Examples -/

/-- Quotes around the text -/
def plainQ (t : Text) : Text := ['\''] ++ t ++ ['\'']

theorem plainQ_quotes : Quotes plainQ := by
  intro t
  simp only [plainQ, List.length_append, List.length_cons, List.length_nil]
  omega

def exVal : Val := .dict [(.str ['t', 'x', 't'], .str (List.replicate 60 'a')), (.str ['l'], .list (List.replicate 12 (.other ['7']))), (.other ['5'] ['5'], .dict [(.str ['x'], .dict [(.str ['y'], .list [])])])]

theorem exVal_plain : exVal.Plain 40 40 := by
  have key : ∀ n, AllPlain 40 40 (List.replicate n (.other ['7'])) := by
    intro n
    induction n with
    | zero => exact .nil
    | succ n ih => exact .cons (.other (by decide)) ih
  unfold exVal
  refine .dict (.cons (by decide) (by decide) .str (.cons (by decide) (by decide) (.list (key _)) (.cons (by decide) (by decide) (.dict ?_) .nil)))
  exact .cons (by decide) (by decide) (.dict (.cons (by decide) (by decide) (.list .nil) .nil)) .nil

example : (fromSample plainQ exVal).length ≤ 700000 := C120_default_partial plainQ_quotes exVal exVal_plain

example : String.ofList (compact plainQ 3 5 2 exVal) = "{txt: 'aaaaa...', l: [7, 7, 7], 5: {x: {...}}}" := by decide +kernel

end Verif.Message
