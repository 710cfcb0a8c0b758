/-!
# Cooking crude samples

Source: /repo src/megatron/energon/task_encoder/cooking.py:14-51, task_encoder/base.py:241-253 (`cook_crude_sample`), 437-466
(`build_cook_crude_sample`), flavors/webdataset/default_generic_webdataset.py:95-104 (where the subflavors of a sample come from: a dict, possibly
empty).

Values of subflavors are of any type `V` with decidable equality. `D` is the rest of a crude sample. A condition and a cook function may
raise.
-/

namespace Verif.Task

/-- A crude sample -/
structure Crude (V D : Type) where
  subflavor : Option String
  subflavors : List (String × V)
  data : D

/-- What a Python function gives: a value or an exception -/
inductive Py (α E : Type) where
  | ok (a : α)
  | raised (e : E)
deriving DecidableEq

/-- cooking.py:14-30 `Cooker` -/
structure Cooker (V D R E : Type) where
  cook : Crude V D → Py R E
  isSubflavor : Option String := none
  hasSubflavors : Option (List (String × V)) := none
  condition : Option (Crude V D → Py Bool E) := none

variable {V D R E : Type} [DecidableEq V]

/-- `d.get(k)` of a dict given by its entries -/
def lookup (k : String) : List (String × V) → Option V
  | [] => none
  | (k', v) :: l => if k' = k then some v else lookup k l

/-- The loop cooking.py:39-44: true if it returns `False` for no entry -/
def subflavorsMatch (want have_ : List (String × V)) : Bool :=
  match want with
  | [] => true
  | (k, v) :: l => if lookup k have_ ≠ some v then false else subflavorsMatch l have_

/-- cooking.py:32-34: the check of `is_subflavor` is passed -/
def Cooker.subOk (c : Cooker V D R E) (s : Crude V D) : Bool :=
  match c.isSubflavor with
  | some f => decide (s.subflavor = some f)
  | none => true

/-- cooking.py:36-44: the check of `has_subflavors` is passed -/
def Cooker.subsOk (c : Cooker V D R E) (s : Crude V D) : Bool :=
  match c.hasSubflavors with
  | some d => subflavorsMatch d s.subflavors
  | none => true

/-- cooking.py:31-50 `is_match` -/
def Cooker.isMatch (c : Cooker V D R E) (s : Crude V D) : Py Bool E :=
  if !c.subOk s then .ok false
  else if !c.subsOk s then .ok false
  else
    match c.condition with
    | some f =>
      match f s with
      | .ok b => .ok b
      | .raised e => .raised e
    | none => .ok true

/-- What arrives at `cook_crude_sample` -/
inductive Incoming (V D R : Type) where
  | crude (s : Crude V D)
  | sample (r : R)
  /-- neither a `CrudeSample` nor a `Sample` -/
  | other

/-- Outcome: a sample, an exception of user code, `NotImplementedError`, `AssertionError`, or (only without the cooking stage) the incoming
object itself. -/
inductive Cooked (V D R E : Type) where
  | sample (r : R)
  | raised (e : E)
  | notImplemented
  | assertion
  | uncooked (i : Incoming V D R)

/-- task_encoder/base.py:241-250: the loop over the cookers -/
def cookLoop : List (Cooker V D R E) → Crude V D → Cooked V D R E
  | [], _ => .notImplemented
  | c :: l, s =>
    match c.isMatch s with
    | .raised e => .raised e
    | .ok true =>
      match c.cook s with
      | .ok r => .sample r
      | .raised e => .raised e
    | .ok false => cookLoop l s

/-- task_encoder/base.py:240-251 `cook_crude_sample` -/
def cookCrude (cookers : List (Cooker V D R E)) : Incoming V D R → Cooked V D R E
  | .crude s => cookLoop cookers s
  | .sample r => .sample r
  | .other => .assertion

/-- task_encoder/base.py:437-466 `build_cook_crude_sample` (not overridden): what one object becomes. The stage is left out if there are no
cookers. -/
def cookStage (cookers : List (Cooker V D R E)) (i : Incoming V D R) : Cooked V D R E :=
  if cookers.isEmpty then .uncooked i else cookCrude cookers i

end Verif.Task
