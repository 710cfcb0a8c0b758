import Verif.Config.OverrideModel
import Verif.Config.TypedSpec

/-! # Overriding configuration values: specification -/

namespace Verif.Config

/-- The parts of a key between the dots -/
def dots : Str → List Str
  | [] => [[]]
  | c :: l =>
    if c = '.' then [] :: dots l
    else match dots l with
      | [] => [[c]]
      | x :: xs => (c :: x) :: xs

/-- What a key says: the parts of a text; an integer is written in decimal. -/
def keyPath : Key → List Str
  | .str s => dots s
  | .int n => [(toString n).toList]

/-- The overrides `o` name the place `q` and give `x` for it: nested dicts and keys with dots mean the same. -/
inductive Named : PVal → List Str → PVal → Prop
  | leaf {x : PVal} : (∀ d, x = .dict d → d = []) → Named x [] x
  | key {d : List (Key × PVal)} {k : Key} {w x : PVal} {q : List Str} : (k, w) ∈ d → Named w q x → Named (.dict d) (keyPath k ++ q) x

/-- `-` for `_` -/
def und (s : Str) : Str := s.map fun c => if c = '-' then '_' else c

/-- Two ways to write the same name (`a-b`, `a_b`) or the same index (`1`, `01`) -/
def SameStep (X : Texts) (a b : Str) : Prop := und a = und b ∨ ∃ i, X.int a = some i ∧ X.int b = some i

/-- One place is the other one, a part of it or contains it. -/
inductive Related (X : Texts) : List Str → List Str → Prop
  | left (q : List Str) : Related X [] q
  | right (p : List Str) : Related X p []
  | cons {a b : Str} {p q : List Str} : SameStep X a b → Related X p q → Related X (a :: p) (b :: q)

/-- The field of this name, the element with this index -/
def child (X : Texts) (v : PVal) (k : Str) : Option PVal :=
  match v with
  | .named _ fs => fs.lookup k
  | .data _ fs => fs.lookup k
  | .list l => match X.int k with
    | some i => if 0 ≤ i then l[i.toNat]? else .none
    | .none => .none
  | .tuple l => match X.int k with
    | some i => if 0 ≤ i then l[i.toNat]? else .none
    | .none => .none
  | _ => .none

/-- What is at a place of a configuration -/
def place (X : Texts) : PVal → List Str → Option PVal
  | v, [] => some v
  | v, k :: q =>
    match child X v k with
    | some w => place X w q
    | .none => .none

/-- Annotations made of dataclasses, named tuples, unions, lists and tuples, down to annotations that satisfy `leaf`. Names of fields are
different and are identifiers, and a class has one definition. -/
inductive Built (X : Texts) (leaf : Ty → Prop) : Ty → Prop
  | leaf {t : Ty} : leaf t → Built X leaf t
  | union {ts : List Ty} : (∀ t ∈ ts, Built X leaf t) → Built X leaf (.union ts)
  | named {c : Str} {fields : List (Str × Ty × Option PVal)} : X.classes c = some (.named c fields) → (fields.map (·.1)).Nodup →
      (∀ f ∈ fields, '-' ∉ f.1) → (∀ f ∈ fields, Built X leaf f.2.1) → Built X leaf (.named c fields)
  | data {c : Str} {fields : List (Str × Ty × Option PVal)} : X.classes c = some (.data c fields) → (fields.map (·.1)).Nodup →
      (∀ f ∈ fields, '-' ∉ f.1) → (∀ f ∈ fields, Built X leaf f.2.1) → Built X leaf (.data c fields)
  | list {t : Ty} : Built X leaf t → Built X leaf (.list t)
  | tupleOf {t : Ty} : Built X leaf t → Built X leaf (.tupleOf t)

/-- `str`, `int`, `float`, `bool`, `None` -/
inductive Prim : Ty → Prop
  | str : Prim .str
  | int : Prim .int
  | float : Prim .float
  | bool : Prim .bool
  | none : Prim .none

/-- Everything but `Any`, `list` and tuples with other elements than `str`, `int`, `float`, `bool`, `None` -/
inductive Leaf : Ty → Prop
  | prim {t : Ty} : Prim t → Leaf t
  | literal (l : List Lit) : Leaf (.literal l)
  | dict (t : Ty) : Leaf (.dict t)
  | rawDict : Leaf .rawDict
  | path : Leaf .path
  | type (c : Str) : Leaf (.type c)
  | callable : Leaf .callable
  | cls (c : Str) : Leaf (.cls c)
  | tuple {ts : List Ty} : (∀ t ∈ ts, Prim t) → Leaf (.tuple ts)

/-- The annotation for a place. For elements of a tuple of fixed size this is the class of the present element, which may differ from the
annotation (`C110_violated_tuple`). -/
inductive TyAt (E : Env) (X : Texts) : PVal → Ty → List Str → Ty → Prop
  | here {v : PVal} {t : Ty} : TyAt E X v t [] t
  | named {v w : PVal} {c f : Str} {fields : List (Str × Ty × Option PVal)} {t t' : Ty} {dflt : Option PVal} {p : List Str} :
      (f, t, dflt) ∈ fields → child X v f = some w → TyAt E X w t p t' → TyAt E X v (.named c fields) (f :: p) t'
  | data {v w : PVal} {c f : Str} {fields : List (Str × Ty × Option PVal)} {t t' : Ty} {dflt : Option PVal} {p : List Str} :
      (f, t, dflt) ∈ fields → child X v f = some w → TyAt E X w t p t' → TyAt E X v (.data c fields) (f :: p) t'
  | list {v w : PVal} {k : Str} {t t' : Ty} {p : List Str} : child X v k = some w → TyAt E X w t p t' → TyAt E X v (.list t) (k :: p) t'
  | tupleOf {v w : PVal} {k : Str} {t t' : Ty} {p : List Str} : child X v k = some w → TyAt E X w t p t' → TyAt E X v (.tupleOf t) (k :: p) t'
  | tuple {v w : PVal} {k : Str} {t t' : Ty} {ts : List Ty} {p : List Str} : child X v k = some w → typeOf X w = some (.ty t) →
      TyAt E X w t p t' → TyAt E X v (.tuple ts) (k :: p) t'
  | union {v : PVal} {k : Str} {t t' : Ty} {ts : List Ty} {p : List Str} : t ∈ ts → Conforms E v t → TyAt E X v t (k :: p) t' →
      TyAt E X v (.union ts) (k :: p) t'

/-- Overrides as they are given in an environment or on a command line: texts (or other single values) for keys with dots. Each key occurs
once, there is no `-`, and an index is written in one way only. -/
def Tidy (X : Texts) (d : List (Key × PVal)) : Prop :=
  (∀ e ∈ d, (∀ m, e.2 ≠ .dict m) ∧ ∃ k, e.1 = .str k ∧ '-' ∉ k) ∧ (d.map (·.1)).Nodup ∧
  ∀ e₁ ∈ d, ∀ e₂ ∈ d, ∀ a ∈ keyPath e₁.1, ∀ b ∈ keyPath e₂.1, ∀ i, X.int a = some i → X.int b = some i → a = b

/-- Annotations whose values are checked: primitive types, `Literal`, paths -/
inductive Sure : Ty → Prop
  | prim {t : Ty} : Prim t → Sure t
  | literal (l : List Lit) : Sure (.literal l)
  | path : Sure .path

/-- A way through dataclasses, named tuples (also optional ones), lists and tuples to a value `w` annotated with `t`; indices are numeric. -/
inductive Way (X : Texts) : PVal → Ty → List Str → PVal → Ty → Prop
  | here {v : PVal} {t : Ty} : Way X v t [] v t
  | named {c f : Str} {fs : List (Str × PVal)} {fields : List (Str × Ty × Option PVal)} {dflt : Option PVal} {t t' : Ty} {w w' : PVal} {p : List Str} :
      fs.map (·.1) = fields.map (·.1) → (fields.map (·.1)).Nodup → (f, t, dflt) ∈ fields → '-' ∉ f → fs.lookup f = some w → Way X w t p w' t' →
      Way X (.named c fs) (.named c fields) (f :: p) w' t'
  | data {c f : Str} {fs : List (Str × PVal)} {fields : List (Str × Ty × Option PVal)} {dflt : Option PVal} {t t' : Ty} {w w' : PVal} {p : List Str} :
      fs.map (·.1) = fields.map (·.1) → (fields.map (·.1)).Nodup → (f, t, dflt) ∈ fields → '-' ∉ f → fs.lookup f = some w → Way X w t p w' t' →
      Way X (.data c fs) (.data c fields) (f :: p) w' t'
  | list {k : Str} {i : Nat} {l : List PVal} {t t' : Ty} {w w' : PVal} {p : List Str} : X.numeric k = true → X.int k = some (i : Int) → l[i]? = some w →
      Way X w t p w' t' → Way X (.list l) (.list t) (k :: p) w' t'
  | tupleOf {k : Str} {i : Nat} {l : List PVal} {t t' : Ty} {w w' : PVal} {p : List Str} : X.numeric k = true → X.int k = some (i : Int) → l[i]? = some w →
      Way X w t p w' t' → Way X (.tuple l) (.tupleOf t) (k :: p) w' t'
  | optNamed {c k : Str} {fs : List (Str × PVal)} {fields : List (Str × Ty × Option PVal)} {t' : Ty} {w' : PVal} {p : List Str} :
      Way X (.named c fs) (.named c fields) (k :: p) w' t' → Way X (.named c fs) (.union [.named c fields, .none]) (k :: p) w' t'
  | optData {c k : Str} {fs : List (Str × PVal)} {fields : List (Str × Ty × Option PVal)} {t' : Ty} {w' : PVal} {p : List Str} :
      Way X (.data c fs) (.data c fields) (k :: p) w' t' → Way X (.data c fs) (.union [.data c fields, .none]) (k :: p) w' t'

end Verif.Config
