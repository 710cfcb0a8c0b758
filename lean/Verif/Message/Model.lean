import Mathlib.Data.List.Basic

/-!
# C120: the messages of errors about samples

Source: /repo src/megatron/energon/errors.py:10-66 (`compact_str`, `SampleException.from_sample`), used by the wrappers for the samples of fatal errors and by field_access.py:63-68.

Texts are lists of characters. `repr` of texts and of values that are not dicts, lists or texts (numbers, bytes, tensors, tuples, dataclasses, ...) is given from outside (`Reprs`, `Val.other`).
-/

namespace Verif.Message

abbrev Text := List Char

/-- A key of a dict: a text, or something else with what `str` and `repr` of it are. -/
inductive Key where
  | str (t : Text)
  | other (str repr : Text)

/-- A value. `other r`: neither a dict nor a list nor a text; `r` is its `repr`. -/
inductive Val where
  | dict (l : List (Key × Val))
  | list (l : List Val)
  | str (t : Text)
  | other (r : Text)

/-- `str(k)` in an f-string -/
def Key.str' : Key → Text
  | .str t => t
  | .other s _ => s

/-- errors.py:32 `isinstance(k, str) and k.startswith("__")` -/
def Key.special : Key → Bool
  | .str t => t.take 2 == ['_', '_']
  | .other .. => false

/-- `repr(k)`; `q` is `repr` of texts -/
def Key.repr (q : Text → Text) : Key → Text
  | .str t => q t
  | .other _ r => r

/-- `", ".join(l)` -/
def join : List Text → Text
  | [] => []
  | [t] => t
  | t :: u :: l => t ++ [',', ' '] ++ join (u :: l)

mutual
/-- `repr(v)` of Python -/
def repr (q : Text → Text) : Val → Text
  | .dict l => ['{'] ++ join (reprPairs q l) ++ ['}']
  | .list l => ['['] ++ join (reprAll q l) ++ [']']
  | .str t => q t
  | .other r => r

def reprPairs (q : Text → Text) : List (Key × Val) → List Text
  | [] => []
  | (k, v) :: l => (k.repr q ++ [':', ' '] ++ repr q v) :: reprPairs q l

def reprAll (q : Text → Text) : List Val → List Text
  | [] => []
  | v :: l => repr q v :: reprAll q l
end

mutual
/-- errors.py:10-55 `compact_str(value, depth, max_items, max_str_len)`. `left` items of the current dict or list may still be shown. -/
def compact (q : Text → Text) (items len : Nat) : Nat → Val → Text
  | 0, .dict _ => ['{', '.', '.', '.', '}']
  | d + 1, .dict l => ['{'] ++ join (compactPairs q items len d items l) ++ ['}']
  | 0, .list _ => ['[', '.', '.', '.', ']']
  | d + 1, .list l => ['['] ++ join (compactAll q items len d items l) ++ [']']
  | _, .str t => if len < t.length then q (t.take len ++ ['.', '.', '.']) else q t
  | _, .other r => r

/-- errors.py:29-37; `itertools.islice` -/
def compactPairs (q : Text → Text) (items len d : Nat) : Nat → List (Key × Val) → List Text
  | 0, _ => []
  | _, [] => []
  | left + 1, (k, v) :: l => (k.str' ++ [':', ' '] ++ (if k.special then repr q v else compact q items len d v)) :: compactPairs q items len d left l

/-- errors.py:43-47; `value[:max_items]` -/
def compactAll (q : Text → Text) (items len d : Nat) : Nat → List Val → List Text
  | 0, _ => []
  | _, [] => []
  | left + 1, v :: l => compact q items len d v :: compactAll q items len d left l
end

/-- errors.py:64-66 `str(SampleException.from_sample(sample))`: with the default depth 3, 10 items, 50 characters -/
def fromSample (q : Text → Text) (v : Val) : Text := "Sample ".toList ++ compact q 10 50 3 v ++ " failed".toList

end Verif.Message
