/-!
# Field maps

Source: /repo src/megatron/energon/flavors/webdataset/field_access.py, default_generic_webdataset.py:66-104.

A string is the list of its characters. Not modelled: a line break at the end of a field description (the regular expression's `$` also
matches in front of it); `int(...)` of a string is any partial function.
-/

namespace Verif.Config

abbrev Str := List Char

/-- A loaded value: dict, list, or anything else -/
inductive Val (O : Type) where
  | dict (l : List (Str × Val O))
  | list (l : List (Val O))
  | other (o : O)

variable {O : Type}

/-- `[^[\]]` -/
def plainChar (c : Char) : Bool := c != '[' && c != ']'

mutual
/-- field_access.py:9: `(?:\[([^[\]]+)])*$`: outside of brackets -/
def accOut : Str → Bool
  | [] => true
  | c :: l => if c = '[' then accOpen l else false
/-- right after an opening bracket -/
def accOpen : Str → Bool
  | [] => false
  | c :: l => if plainChar c then accIn l else false
/-- inside of brackets, after at least one character -/
def accIn : Str → Bool
  | [] => false
  | c :: l => if c = ']' then accOut l else if plainChar c then accIn l else false
end

/-- `text.split("][")` -/
def splitBr : Str → List Str
  | [] => [[]]
  | [c] => [[c]]
  | c :: d :: l =>
    if c = ']' ∧ d = '[' then [] :: splitBr l
    else match splitBr (d :: l) with
      | [] => [[c]]
      | x :: xs => (c :: x) :: xs

/-- `text.rstrip("]")` -/
def rstripBr (s : Str) : Str := (s.reverse.dropWhile (· = ']')).reverse

/-- field_access.py:21-33: one option. `desc` is the whole description. -/
def splitOption (desc option : Str) : List Str :=
  let name := option.takeWhile plainChar
  let access := option.dropWhile plainChar
  if name ≠ [] ∧ accOut access = true then
    name :: ((splitBr access).filter (· ≠ [])).map fun a => rstripBr (a.dropWhile (· = '['))
  else [desc]

/-- field_access.py:12-35 `split_field_access` -/
def splitFieldAccess (desc : Str) : List (List Str) := (desc.splitOn ',').map (splitOption desc)

/-- The exceptions that occur -/
inductive FErr where
  /-- `FieldAccessError`, a `ValueError` -/
  | access
  /-- `ValueError` of `int(...)` -/
  | value
  | index
  deriving DecidableEq

/-- `value[key]` of a dict -/
def dictGet (l : List (Str × Val O)) (k : Str) : Option (Val O) :=
  match l with
  | [] => none
  | (k', v) :: l => if k' = k then some v else dictGet l k

/-- `value[i]` of a list: negative numbers count from the end -/
def listGet (l : List (Val O)) (i : Int) : Option (Val O) :=
  if 0 ≤ i then l[i.toNat]?
  else if 0 ≤ i + l.length then l[(i + l.length).toNat]? else none

/-- field_access.py:42-68 `_field_access`. `int`: Python's `int(...)` on strings, `none`: `ValueError`. -/
def accessOne (int : Str → Option Int) : Val O → List Str → Except FErr (Val O)
  | v, [] => .ok v
  | .dict l, k :: ks =>
    match dictGet l k with
    | some v => accessOne int v ks
    | none => .error .access
  | .list l, k :: ks =>
    match int k with
    | none => .error .value
    | some i =>
      match listGet l i with
      | some v => accessOne int v ks
      | none => .error .index
  | .other _, _ :: _ => .error .access

/-- field_access.py:71-88 `field_access`. All the exceptions that occur are caught at line 86. The options are never empty (`split`
returns at least one piece); `field[-1]` of an empty list is an `IndexError`. -/
def fieldAccess (int : Str → Option Int) (v : Val O) : List (List Str) → Except FErr (Val O)
  | [] => .error .index
  | [f] => accessOne int v f
  | f :: g :: fs =>
    match accessOne int v f with
    | .ok r => .ok r
    | .error _ => fieldAccess int v (g :: fs)

/-- A field of a sample class; `default` and `factory` tell whether `default` and `default_factory` are given (a dataclass
cannot have both for a field). -/
structure FieldDecl where
  name : Str
  default : Bool
  factory : Bool
  ok : ¬ (default = true ∧ factory = true)

/-- default_generic_webdataset.py:74-84: a field map is accepted. -/
def acceptMap (cls : List FieldDecl) (fieldMap : List (Str × Str)) : Bool :=
  fieldMap.all (fun kv => cls.any fun f => f.name == kv.1) &&
  cls.all (fun f => !(f.default && f.factory) || fieldMap.any fun kv => kv.1 == f.name)

/-- default_generic_webdataset.py:88-89: the parts of a sample that are read from the tar file (`part_filter`) -/
def neededParts (fieldMap : List (Str × Str)) : List Str :=
  fieldMap.flatMap fun kv => (splitFieldAccess kv.2).map fun f => f.headD []

/-- The loaded fields: lines 85-87 -/
def mapFields (int : Str → Option Int) (sample : Val O) : List (Str × Str) → Except FErr (List (Str × Val O))
  | [] => .ok []
  | (k, d) :: l =>
    match fieldAccess int sample (splitFieldAccess d) with
    | .error e => .error e
    | .ok v =>
      match mapFields int sample l with
      | .error e => .error e
      | .ok r => .ok ((k, v) :: r)

/-- `{**a, **b}`, `a` already being a dict: a value for an old key replaces the old one. -/
def setKey (a : List (Str × Val O)) (k : Str) (v : Val O) : List (Str × Val O) :=
  match a with
  | [] => [(k, v)]
  | (k', w) :: a => if k' = k then (k', v) :: a else (k', w) :: setKey a k v

/-- `{**a, **b}` -/
def setKeys (a b : List (Str × Val O)) : List (Str × Val O) := b.foldl (fun a kv => setKey a kv.1 kv.2) a

/-- Why a sample cannot be made -/
inductive LErr where
  | field (e : FErr)
  /-- `KeyError`: no `__key__` or `__restore_key__` in the sample -/
  | key
  /-- `TypeError`: a missing or unknown argument of the sample class -/
  | type
  deriving DecidableEq

def keyName : Str := "__key__".toList
def restoreKeyName : Str := "__restore_key__".toList
def subflavorName : Str := "__subflavor__".toList
def subflavorsName : Str := "__subflavors__".toList

/-- default_generic_webdataset.py:94-100: the arguments of the sample class -/
def sampleArgs (int : Str → Option Int) (sample : List (Str × Val O)) (fieldMap : List (Str × Str)) (subflavor subflavors : Val O) :
    Except LErr (List (Str × Val O)) :=
  match dictGet sample keyName, mapFields int (.dict sample) fieldMap, dictGet sample restoreKeyName with
  | none, _, _ => .error .key
  | _, .error e, _ => .error (.field e)
  | _, _, none => .error .key
  | some k, .ok fs, some rk =>
    .ok (setKeys (setKeys [(keyName, k)] fs) [(restoreKeyName, rk), (subflavorName, subflavor), (subflavorsName, subflavors)])

/-- default_generic_webdataset.py:106-107 `load_sample`: the constructor of a dataclass with the fields `cls`; fields without a value get
their default (not shown here). -/
def loadSample (int : Str → Option Int) (cls : List FieldDecl) (sample : List (Str × Val O)) (fieldMap : List (Str × Str))
    (subflavor subflavors : Val O) : Except LErr (List (Str × Val O)) :=
  match sampleArgs int sample fieldMap subflavor subflavors with
  | .error e => .error e
  | .ok args =>
    if args.all (fun kv => cls.any fun f => f.name == kv.1) &&
        cls.all (fun f => f.default || f.factory || args.any fun kv => kv.1 == f.name) then .ok args
    else .error .type

end Verif.Config
