/-!
# Paths

Source: /repo src/megatron/energon/epathlib/epath.py, and the behaviour of Python's `PurePosixPath` it is built on. A string is the list of
its characters. Not modelled: line breaks in paths, the contents of the rclone configuration (any remote name is accepted), access to
files.
-/

namespace Verif.Path

abbrev Str := List Char

/-- The root of a `PurePosixPath`: none (relative), `/`, or `//` (POSIX: exactly two leading slashes are kept) -/
inductive Root where
  | rel
  | one
  | two
deriving DecidableEq, Repr

/-- A `PurePosixPath`; `names` are its `parts` without the root -/
structure PPath where
  root : Root
  names : List Str
deriving DecidableEq, Repr

/-- `s.split("/")` -/
def splitSlash : Str → List Str
  | [] => [[]]
  | c :: s =>
    if c = '/' then [] :: splitSlash s
    else
      match splitSlash s with
      | [] => [[c]]
      | w :: ws => (c :: w) :: ws

/-- The root of a string -/
def rootOf : Str → Root
  | '/' :: '/' :: '/' :: _ => .one
  | '/' :: '/' :: _ => .two
  | '/' :: _ => .one
  | _ => .rel

/-- `PurePosixPath(s)`: empty parts and parts `.` are dropped -/
def parse (s : Str) : PPath := ⟨rootOf s, (splitSlash s).filter (fun w => w ≠ [] ∧ w ≠ ['.'])⟩

/-- The names with `/` in between -/
def joinNames : List Str → Str
  | [] => []
  | [w] => w
  | w :: v :: l => w ++ '/' :: joinNames (v :: l)

/-- `str(path)` -/
def PPath.str (p : PPath) : Str :=
  match p.root, p.names with
  | .rel, [] => ['.']
  | .rel, l => joinNames l
  | .one, l => '/' :: joinNames l
  | .two, l => '/' :: '/' :: joinNames l

/-- `a / b` of `PurePosixPath` -/
def PPath.join (a b : PPath) : PPath :=
  match b.root with
  | .rel => ⟨a.root, a.names ++ b.names⟩
  | _ => b

/-- `is_absolute()` -/
def PPath.isAbs (p : PPath) : Bool := p.root ≠ .rel

def dotdot : Str := ['.', '.']

/-- epath.py:84-94, the loop of `_resolve`; `acc` is `new_parts`. `none`: `ValueError("Path above root")`. (The test `path == "."` compares the
wrong variable, but there are no parts `.`.) -/
def resolveLoop : List Str → List Str → Option (List Str)
  | [], acc => some acc
  | w :: l, acc =>
    if w = dotdot then (if acc.length = 0 then none else resolveLoop l acc.dropLast)
    else resolveLoop l (acc ++ [w])

/-- epath.py:79-98 `_resolve`; `none`: `ValueError` -/
def resolve (p : PPath) : Option PPath :=
  if p.root ≠ .one then none
  else if dotdot ∈ p.names then (resolveLoop p.names []).map fun l => ⟨.one, l⟩
  else some p

/-- Protocol, with the name of the remote the file system object was made for -/
inductive Fs where
  | loc
  | rclone (remote : Str)
deriving DecidableEq, Repr

/-- An `EPath`: `internal_path`, and `protocol`, `fs`, `num_fs_path_parts`, which always go together (lines 41-73) -/
structure EPath where
  path : PPath
  fs : Fs
deriving DecidableEq, Repr

/-- `[a-z]` (epath.py:102) -/
def isLower (c : Char) : Bool := 'a' ≤ c ∧ c ≤ 'z'

/-- epath.py:101-106 `_split_protocol`: `^([a-z]+)://(.+)$` (for texts without line breaks, which `.` does not match) -/
def splitProtocol (s : Str) : Option (Str × Str) :=
  let p := s.takeWhile isLower
  match s.dropWhile isLower with
  | ':' :: '/' :: '/' :: c :: rest => if p = [] then none else some (p, c :: rest)
  | _ => none

/-- epath.py:35-73 `EPath(str)`; `none`: an exception (unknown protocol, path above the root, no remote name). -/
def EPath.ofStr (s : Str) : Option EPath :=
  match splitProtocol s with
  | none => some ⟨parse s, .loc⟩
  | some (proto, path) =>
    if proto = ['r', 'c', 'l', 'o', 'n', 'e'] then
      let path := if path.head? = some '/' then path else '/' :: path
      match resolve (parse path) with
      | none => none
      | some p =>
        match p.names with
        | [] => none
        | r :: _ => some ⟨p, .rclone r⟩
    else none

/-- epath.py:180-182 `_internal_nonfs_path`: the names of the path as used inside of the file system (`num_fs_path_parts` is 2, root and remote
name, for rclone, and 0 for local paths). -/
def EPath.inside (p : EPath) : List Str :=
  match p.fs with
  | .loc => p.path.names
  | .rclone _ => p.path.names.drop 1

/-- epath.py:204-213 `url` of an absolute path -/
def EPath.url (p : EPath) : Str :=
  match p.fs with
  | .loc => p.path.str
  | .rclone _ =>
    ['r', 'c', 'l', 'o', 'n', 'e', ':', '/', '/'] ++ (match p.path.str with | '/' :: s => s | s => s)

/-- epath.py:198-201 `parent` (of a path with names; the parent of the root is the root) -/
def EPath.parent (p : EPath) : EPath := { p with path := { p.path with names := p.path.names.dropLast } }

/-- epath.py:318-330 `__truediv__` with another `EPath`; `none`: an exception -/
def EPath.div (a b : EPath) : Option EPath :=
  if !a.path.isAbs then none
  else if b.path.isAbs then some b
  else (resolve (a.path.join b.path)).map fun p => { a with path := p }

/-- `a / "string"` -/
def EPath.divStr (a : EPath) (s : Str) : Option EPath := (EPath.ofStr s).bind a.div

/-- epath.py:305-316 `relative_to`; `none`: an exception (relative paths, different file systems, not below `other`). The remote names are
compared as part of the paths. `PurePosixPath.relative_to` needs equal roots and `other` to be a prefix; the string of the empty
remainder is `.`. -/
def EPath.relativeTo (p other : EPath) : Option Str :=
  if !p.path.isAbs || !other.path.isAbs then none
  else if p.fs ≠ other.fs then none
  else if p.path.root = other.path.root ∧ other.path.names <+: p.path.names then
    some (PPath.str ⟨.rel, p.path.names.drop other.path.names.length⟩)
  else none

/-! ## Suffixes -/

/-- The last position of a dot, counted from the end: `name[i:]` for `i = name.rfind(".")`, if there is a dot -/
def lastSuffix (name : Str) : Option (Str × Str) :=
  match name.reverse.dropWhile (· ≠ '.') with
  | [] => none
  | _ :: stem => some (stem.reverse, '.' :: (name.reverse.takeWhile (· ≠ '.')).reverse)

/-- `PurePosixPath(name).suffix` as the pair of the name without it, and it: empty unless the last dot is neither first nor last -/
def suffixOf (name : Str) : Str × Str :=
  match lastSuffix name with
  | none => (name, [])
  | some (stem, suf) => if stem = [] ∨ suf = ['.'] then (name, []) else (stem, suf)

/-- `with_suffix(suffix)` for the last name -/
def withSuffix (name suffix : Str) : Str := (suffixOf name).1 ++ suffix

/-- itar.py:13, 44: the name of the index file of a shard -/
def indexName (name : Str) : Str := withSuffix name ".tar.idx".toList

/-- itar.py:45: the temporary file while the index is written -/
def indexTmpName (name : Str) : Str := withSuffix name ".tar.idx.tmp".toList

end Verif.Path
