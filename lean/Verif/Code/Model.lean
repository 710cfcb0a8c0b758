import Verif.Path.Model

/-!
# Functions from python files

Source: /repo src/megatron/energon/module_loader.py, used for `sample_loader` and `part_filter` in
flavors/webdataset/default_generic_webdataset.py:50-71. A python file is what its evaluation gives: an exception, or global variables, of which it
matters here whether they can be called. Every evaluation makes new objects: a function object is identified by the evaluation that made it and the
name of the variable. Not modelled: the effects of the evaluated code on anything but its own global variables (but the evaluations themselves are
counted), other processes (each has its own modules). Keys of `_modules` are compared by `internal_path` and `protocol` only; all keys are parsed from
strings, so that equal keys have the same file system.
-/

namespace Verif.Code

open Verif.Path

/-- The contents of a python file -/
structure Src where
  /-- compiling or evaluating it raises an exception -/
  raises : Bool := false
  /-- the global variables after evaluation: is the value callable? -/
  vars : Str → Option Bool

/-- A function object: made by evaluation number `eval`, of the file `path`, found as the variable `name` -/
structure Fn where
  path : EPath
  eval : Nat
  name : Str
deriving DecidableEq

/-- The process: the files, which may be changed by others at any time, the class attribute `_modules`, and (ghost) the evaluations so far that ended
without an exception, the last one first -/
structure St where
  disk : EPath → Option Src
  modules : EPath → Option (Nat × Src) := fun _ => none
  evals : List EPath := []

/-- module_loader.py:60-61 `module_fn.rsplit(":", 1)`, if there is a colon: what is before and after the last one -/
def rsplitColon (s : Str) : Option (Str × Str) :=
  match s.reverse.dropWhile (· ≠ ':') with
  | [] => none
  | _ :: m => some (m.reverse, (s.reverse.takeWhile (· ≠ ':')).reverse)

/-- module_loader.py:60-66: module and name of the function; `none`: `ValueError` -/
def splitFn (s : Str) (dflt : Option Str) : Option (Str × Str) :=
  match rsplitColon s with
  | some x => some x
  | none => dflt.map fun f => (s, f)

/-- `str(path)`, epath.py:357-361 -/
def strOf (p : EPath) : Str := if p.path.isAbs then p.url else p.path.str

/-- module_loader.py:67-68, and `EPath(path)` of line 35: the file of a module; `none`: an exception -/
def locate (module : Str) (rel : Option EPath) : Option EPath :=
  match rel with
  | none => EPath.ofStr module
  | some d => (d.divStr module).bind fun q => EPath.ofStr (strOf q)

/-- module_loader.py:16-24 `_load_module`: `open` asserts an absolute path. `none`: an exception, nothing is remembered. -/
def loadModule (q : EPath) (s : St) : Option St :=
  if q.path.isAbs then
    match s.disk q with
    | none => none
    | some src =>
      if src.raises then none
      else
        some { s with modules := fun p => if p = q then some (s.evals.length, src) else s.modules p, evals := q :: s.evals }
  else none

/-- module_loader.py:26-38 `__getitem__` -/
def getItem (q : EPath) (s : St) : Option (St × Nat × Src) :=
  match s.modules q with
  | some m => some (s, m)
  | none => (loadModule q s).bind fun s' => (s'.modules q).map fun m => (s', m)

/-- module_loader.py:40-71 `get_function`; `none`: an exception -/
def getFunction (moduleFn : Str) (dflt : Option Str) (rel : Option EPath) (s : St) : St × Option Fn :=
  match splitFn moduleFn dflt with
  | none => (s, none)
  | some (module, name) =>
    match locate module rel with
    | none => (s, none)
    | some q =>
      match getItem q s with
      | none => (s, none)
      | some (s', e, src) => (s', if src.vars name = some true then some ⟨q, e, name⟩ else none)

/-- What happens in a process -/
inductive Ev where
  /-- somebody writes or deletes a file -/
  | write (p : EPath) (c : Option Src)
  /-- `get_function(fn, dflt, relative_path=rel)` -/
  | call (fn : Str) (dflt : Option Str) (rel : Option EPath)

/-- One event, and what it returns -/
def evStep (s : St) : Ev → St × Option Fn
  | .write p c => ({ s with disk := fun q => if q = p then c else s.disk q }, none)
  | .call fn dflt rel => getFunction fn dflt rel s

/-- A history: the state afterwards and what the events returned -/
def run (s : St) : List Ev → St × List (Option Fn)
  | [] => (s, [])
  | e :: l =>
    let r := run (evStep s e).1 l
    (r.1, (evStep s e).2 :: r.2)

/-- default_generic_webdataset.py:57-70 for the dataset at `path`: both functions are given as strings, relative to `.nv-meta` -/
def datasetFunctions (path : EPath) (sampleLoader partFilter : Str) : List Ev :=
  match path.divStr ".nv-meta".toList with
  | none => []
  | some d => [.call sampleLoader (some "sample_loader".toList) (some d), .call partFilter (some "part_filter".toList) (some d)]

end Verif.Code
