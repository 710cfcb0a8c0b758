import Verif.Prep.Model
import Mathlib.Data.List.Sort
import Init.Data.Nat.ToString

/-!
# The files `energon prepare` writes, character by character

Model of /repo src/megatron/energon/flavors/webdataset/prepare.py:214-259 (writing `.info.yaml` and `split.yaml`), tools/prepare.py:362-384 (writing
`sample_loader.py` and `dataset.yaml`) and of what is read of these files when the dataset is loaded: dataset_config.py:86-107,
flavors/webdataset/metadata.py:39-73.

Every file is written in place (`open("w")`): it is emptied first and its text then reaches it piece by piece, so that a process that dies leaves some
prefix of the text behind. (Nothing is said about a machine that dies: then also the order of the files is open, the code does not call `fsync`.)

Simplified: the writer and the reader of YAML (PyYAML) are modelled for files of this shape and for *plain* names (letters, digits, `_ - . /`): names that need
quotes are not covered. `Texts.str` tells which plain names YAML reads as a string (`12` is a number). The reader is meant to be exact for
the texts the commands write and for all prefixes of these.
-/

namespace Verif.Prep

abbrev Line := List Char

/-- The characters of the names covered -/
def plainChar (c : Char) : Bool := c.isAlphanum || c = '_' || c = '-' || c = '.' || c = '/'

/-- What is not modelled of YAML and of the loading of `dataset.yaml` (dataset_config.py:92-107, C73–C75) -/
structure Texts where
  /-- a scalar made of these characters is read as a string -/
  str : Line → Bool
  /-- this text of `dataset.yaml` makes a dataset -/
  usable : List Char → Bool

/-! ## Writing -/

/-- `yaml.dump` with `sort_keys` (the default): the entries of a mapping by key -/
def sortKeys {α : Type} (d : Dict α) : Dict α := d.insertionSort fun a b => a.1 ≤ b.1

/-- prepare.py:217-221: `yaml.dump(to_json_object(info), wf)` in block style -/
def infoLines' (counts : Dict ℕ) : List Line :=
  match sortKeys counts with
  | [] => ["shard_counts: {}".toList]
  | d => "shard_counts:".toList :: d.map fun e => "  ".toList ++ e.1.toList ++ ": ".toList ++ Nat.toDigits 10 e.2

/-- The lines of one split part; the empty list is written inline, a sequence in a mapping is not indented -/
def partLines (p : String × List String) : List Line :=
  match p.2 with
  | [] => ["  ".toList ++ p.1.toList ++ ": []".toList]
  | names => ("  ".toList ++ p.1.toList ++ ":".toList) :: names.map fun n => "  - ".toList ++ n.toList

/-- prepare.py:257-259: `yaml.dump(to_json_object(splits_config), wf)`; `exclude` is the default, an empty list -/
def splitLines (parts : Dict (List String)) : List Line :=
  "exclude: []".toList ::
    match sortKeys parts with
    | [] => ["split_parts: {}".toList]
    | d => "split_parts:".toList :: d.flatMap partLines

/-- The text made of the lines -/
def render (ls : List Line) : List Char := ls.flatMap fun l => l ++ ['\n']

/-- The files in the folder `.nv-meta` -/
inductive File where
  | info | split | loader | dataset
deriving DecidableEq

/-- The content of the folder; `none`: there is no such file -/
abbrev Folder := File → Option (List Char)

def Folder.put (d : Folder) (f : File) (t : List Char) : Folder := fun g => if g = f then some t else d g

/-- What is written, in this order: prepare.py:217-221, 257-259, tools/prepare.py:365-371 (only if the user wants a sample loader), 381-384 (only if the user
wants the file to be made). -/
def prepareWrites (counts : Dict ℕ) (parts : Dict (List String)) (loader dataset : Option (List Char)) : List (File × List Char) :=
  (.info, render (infoLines' counts)) :: (.split, render (splitLines parts)) ::
    ((loader.map fun t => (File.loader, t)).toList ++ (dataset.map fun t => (File.dataset, t)).toList)

/-- The folder when the process dies: before a write, or during a write, when a part of the text (also nothing, or everything) is in the file. -/
inductive Died : Folder → List (File × List Char) → Folder → Prop
  | before {d ws} : Died d ws d
  | during {d f t ws p} : p <+: t → Died d ((f, t) :: ws) (d.put f p)
  | later {d f t ws d'} : Died (d.put f t) ws d' → Died d ((f, t) :: ws) d'

/-- The folder when all was written -/
def Folder.done (d : Folder) : List (File × List Char) → Folder
  | [] => d
  | w :: ws => Folder.done (d.put w.1 w.2) ws

/-! ## Reading -/

/-- The pieces between line breaks -/
def pieces : List Char → List Line
  | [] => [[]]
  | c :: cs =>
    if c = '\n' then [] :: pieces cs
    else
      match pieces cs with
      | l :: ls => (c :: l) :: ls
      | [] => [[c]]

def blankLine (l : Line) : Bool := l.all fun c => c = ' '

/-- The lines that matter: YAML ignores blank lines -/
def linesOf (t : List Char) : List Line := (pieces t).filter fun l => !blankLine l

/-- `l` without the prefix `p` -/
def after (p l : Line) : Option Line := if p.isPrefixOf l then some (l.drop p.length) else none

/-- A plain name at the start of a line and what comes after it -/
def nameOf (l : Line) : Line × Line := (l.takeWhile plainChar, l.dropWhile plainChar)

/-- A line `  name: number` of `.info.yaml`. Otherwise: a YAML error, or `null` or other values where a number is wanted (`raw_to_typed`, C72), or keys
that are no strings. -/
def readCount (X : Texts) (l : Line) : Option (String × ℕ) :=
  match after "  ".toList l with
  | none => none
  | some l =>
    match after ": ".toList (nameOf l).2 with
    | none => none
    | some v =>
      if (nameOf l).1 ≠ [] ∧ X.str (nameOf l).1 ∧ v ≠ [] ∧ v.all Char.isDigit then some (String.ofList (nameOf l).1, Nat.ofDigitChars 10 v 0)
      else none

/-- metadata.py:39-42: the counts; `none`: an exception. A mapping without entries is `{}`: without it the value is `null`. -/
def readInfo (X : Texts) (t : List Char) : Option (Dict ℕ) :=
  match linesOf t with
  | [] => none
  | h :: ls =>
    if h = "shard_counts: {}".toList ∧ ls = [] then some []
    else if h = "shard_counts:".toList ∧ ls ≠ [] then allSome (ls.map (readCount X))
    else none

/-- A line of the split parts -/
inductive PartLine where
  /-- `  - name` -/
  | item (name : String)
  /-- `  part:` -/
  | head (part : String)
  /-- `  part: []` -/
  | none (part : String)

def readPartLine (X : Texts) (l : Line) : Option PartLine :=
  match after "  - ".toList l with
  | some n => if n ≠ [] ∧ n.all plainChar ∧ X.str n then some (.item (String.ofList n)) else none
  | none =>
    match after "  ".toList l with
    | none => none
    | some l =>
      if (nameOf l).1 ≠ [] ∧ X.str (nameOf l).1 then
        if (nameOf l).2 = ":".toList then some (.head (String.ofList (nameOf l).1))
        else if (nameOf l).2 = ": []".toList then some (.none (String.ofList (nameOf l).1))
        else none
      else none

/-- One more line in front of the lines read: `r.1` are items whose part is still to come. A part without items is `null`: refused. -/
def addPartLine (l : Option PartLine) (r : Option (List String × Dict (List String))) : Option (List String × Dict (List String)) :=
  match l, r with
  | some (.item n), some (items, d) => some (n :: items, d)
  | some (.head p), some (items, d) => if items = [] then none else some ([], (p, items) :: d)
  | some (.none p), some (items, d) => if items = [] then some ([], (p, []) :: d) else none
  | _, _ => none

def readParts (X : Texts) (ls : List Line) : Option (List String × Dict (List String)) :=
  ls.foldr (fun l r => addPartLine (readPartLine X l) r) (some ([], []))

/-- metadata.py:43-46: the split parts of a file whose `exclude` is the empty list; `none`: an exception -/
def readSplit (X : Texts) (t : List Char) : Option (Dict (List String)) :=
  match linesOf t with
  | e :: h :: ls =>
    if e = "exclude: []".toList then
      if h = "split_parts: {}".toList ∧ ls = [] then some []
      else if h = "split_parts:".toList ∧ ls ≠ [] then
        match readParts X ls with
        | some ([], d) => some d
        | _ => none
      else none
    else none
  | _ => none

/-- dataset_config.py:86-107, metadata.py:39-73: the shards of a split part that a loader gets; `none`: loading is an error. (A part without shards is an
error, too, C59.) -/
def loadPart (X : Texts) (expand : String → List String) (d : Folder) (part : String) : Option (List Shard) :=
  match d .info, d .dataset, d .split with
  | some i, some ds, some s =>
    if X.usable ds then
      match readInfo X i, readSplit X s with
      | some counts, some parts =>
        match fromConfig expand counts parts [] part with
        | .shards l _ => some l
        | _ => none
      | _, _ => none
    else none
  | _, _, _ => none

end Verif.Prep
