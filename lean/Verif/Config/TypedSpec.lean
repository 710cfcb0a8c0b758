import Verif.Config.TypedModel

/-! # Typed configurations: specification -/

namespace Verif.Config

/-- Raw data fit an annotation completely: no attribute is missing (unless it has a default), and none is left over. -/
inductive Fits : PVal → Ty → Prop
  | str (s : Str) : Fits (.str s) .str
  | int (n : Int) : Fits (.int n) .int
  | intBool (b : Bool) : Fits (.bool b) .int
  | float (a : Int) (b : Nat) : Fits (.float a b) .float
  | floatInt (n : Int) : Fits (.int n) .float
  | floatBool (b : Bool) : Fits (.bool b) .float
  | bool (b : Bool) : Fits (.bool b) .bool
  | none : Fits .none .none
  | any (v : PVal) : Fits v .any
  | literal {v : PVal} {l : List Lit} {x : Lit} : x ∈ l → litEq v x = true → Fits v (.literal l)
  | union {v : PVal} {ts : List Ty} {t : Ty} : t ∈ ts → Fits v t → Fits v (.union ts)
  | named {c : Str} {d d' : List (Key × PVal)} {fields : List (Str × Ty × Option PVal)} : undash d = some d' →
      (∀ p ∈ d', ∃ f ∈ fields, p.1 = .str f.1) → (∀ f ∈ fields, ((getKey d' f.1).or f.2.2).isSome = true) →
      (∀ f ∈ fields, ∀ v, (getKey d' f.1).or f.2.2 = some v → Fits v f.2.1) → Fits (.dict d) (.named c fields)
  | data {c : Str} {d : List (Key × PVal)} {fields : List (Str × Ty × Option PVal)} :
      (∀ p ∈ d, ∃ f ∈ fields, p.1 = .str f.1) → (∀ f ∈ fields, ((getKey d f.1).or f.2.2).isSome = true) →
      (∀ f ∈ fields, ∀ v, (getKey d f.1).or f.2.2 = some v → Fits v f.2.1) → Fits (.dict d) (.data c fields)
  | list {l : List PVal} {t : Ty} : (∀ v ∈ l, Fits v t) → Fits (.list l) (.list t)
  | tupleOf {l : List PVal} {t : Ty} : (∀ v ∈ l, Fits v t) → Fits (.list l) (.tupleOf t)
  | tuple {l : List PVal} {ts : List Ty} : l.length = ts.length → (∀ p ∈ l.zip ts, Fits p.1 p.2) → Fits (.list l) (.tuple ts)
  | dict {d : List (Key × PVal)} {t : Ty} : (∀ p ∈ d, Fits p.2 t) → Fits (.dict d) (.dict t)
  | rawList (l : List PVal) : Fits (.list l) .rawList
  | rawDict (d : List (Key × PVal)) : Fits (.dict d) .rawDict
  | path (s : Str) : Fits (.str s) .path
  | pathPath (p : Str) : Fits (.path p) .path
  | type (v : PVal) (c : Str) : Fits v (.type c)
  | callable (v : PVal) : Fits v .callable
  | cls (v : PVal) (c : Str) : Fits v (.cls c)

/-- A Python value is of the annotated type. -/
inductive Conforms (E : Env) : PVal → Ty → Prop
  | str (s : Str) : Conforms E (.str s) .str
  | int (n : Int) : Conforms E (.int n) .int
  | intBool (b : Bool) : Conforms E (.bool b) .int
  | float (a : Int) (b : Nat) : Conforms E (.float a b) .float
  | floatInt (n : Int) : Conforms E (.int n) .float
  | floatBool (b : Bool) : Conforms E (.bool b) .float
  | bool (b : Bool) : Conforms E (.bool b) .bool
  | none : Conforms E .none .none
  | any (v : PVal) : Conforms E v .any
  | literal {v : PVal} {l : List Lit} {x : Lit} : x ∈ l → litEq v x = true → Conforms E v (.literal l)
  | union {v : PVal} {ts : List Ty} {t : Ty} : t ∈ ts → Conforms E v t → Conforms E v (.union ts)
  | named {c : Str} {fs : List (Str × PVal)} {fields : List (Str × Ty × Option PVal)} : fs.map (·.1) = fields.map (·.1) →
      (∀ p ∈ fs.zip fields, Conforms E p.1.2 p.2.2.1) → Conforms E (.named c fs) (.named c fields)
  | data {c : Str} {fs : List (Str × PVal)} {fields : List (Str × Ty × Option PVal)} : fs.map (·.1) = fields.map (·.1) →
      (∀ p ∈ fs.zip fields, Conforms E p.1.2 p.2.2.1) → Conforms E (.data c fs) (.data c fields)
  | list {l : List PVal} {t : Ty} : (∀ v ∈ l, Conforms E v t) → Conforms E (.list l) (.list t)
  | tupleOf {l : List PVal} {t : Ty} : (∀ v ∈ l, Conforms E v t) → Conforms E (.tuple l) (.tupleOf t)
  | tuple {l : List PVal} {ts : List Ty} : l.length = ts.length → (∀ p ∈ l.zip ts, Conforms E p.1 p.2) →
      Conforms E (.tuple l) (.tuple ts)
  | dict {d : List (Key × PVal)} {t : Ty} : (∀ p ∈ d, ∃ s, p.1 = .str s) → (∀ p ∈ d, Conforms E p.2 t) → Conforms E (.dict d) (.dict t)
  | rawList (l : List PVal) : Conforms E (.list l) .rawList
  | rawDict (d : List (Key × PVal)) : Conforms E (.dict d) .rawDict
  | path (p : Str) : Conforms E (.path p) .path
  | cls {n c : Str} {args : List (Str × PVal)} : E.isSub n c = true → Conforms E (.obj n args) (.cls c)
  | type {n c : Str} : E.isSub n c = true → Conforms E (.other n) (.type c)
  | callable (n : Str) : Conforms E (.other n) .callable

/-- All keys of all dicts in the value are strings. -/
inductive StrKeys : PVal → Prop
  | none : StrKeys .none
  | bool (b : Bool) : StrKeys (.bool b)
  | int (n : Int) : StrKeys (.int n)
  | float (a : Int) (b : Nat) : StrKeys (.float a b)
  | str (s : Str) : StrKeys (.str s)
  | path (p : Str) : StrKeys (.path p)
  | list {l : List PVal} : (∀ v ∈ l, StrKeys v) → StrKeys (.list l)
  | tuple {l : List PVal} : (∀ v ∈ l, StrKeys v) → StrKeys (.tuple l)
  | dict {d : List (Key × PVal)} : (∀ p ∈ d, ∃ s, p.1 = .str s) → (∀ p ∈ d, StrKeys p.2) → StrKeys (.dict d)
  | named {c : Str} {fs : List (Str × PVal)} : (∀ p ∈ fs, StrKeys p.2) → StrKeys (.named c fs)
  | data {c : Str} {fs : List (Str × PVal)} : (∀ p ∈ fs, StrKeys p.2) → StrKeys (.data c fs)
  | obj (c : Str) (args : List (Str × PVal)) : StrKeys (.obj c args)
  | other (n : Str) : StrKeys (.other n)

/-- The annotations whose values are checked by the code: no `Tuple` of fixed size and no classes other than named tuples, dataclasses and
paths. The defaults have string keys. -/
inductive Checked : Ty → Prop
  | str : Checked .str
  | int : Checked .int
  | float : Checked .float
  | bool : Checked .bool
  | none : Checked .none
  | any : Checked .any
  | literal (l : List Lit) : Checked (.literal l)
  | union {ts : List Ty} : (∀ t ∈ ts, Checked t) → Checked (.union ts)
  | named {c : Str} {fields : List (Str × Ty × Option PVal)} : (∀ f ∈ fields, Checked f.2.1) →
      (∀ f ∈ fields, ∀ v, f.2.2 = some v → StrKeys v) → Checked (.named c fields)
  | data {c : Str} {fields : List (Str × Ty × Option PVal)} : (∀ f ∈ fields, Checked f.2.1) →
      (∀ f ∈ fields, ∀ v, f.2.2 = some v → StrKeys v) → Checked (.data c fields)
  | list {t : Ty} : Checked t → Checked (.list t)
  | tupleOf {t : Ty} : Checked t → Checked (.tupleOf t)
  | dict {t : Ty} : Checked t → Checked (.dict t)
  | rawList : Checked .rawList
  | rawDict : Checked .rawDict
  | path : Checked .path

/-- The value is of the type and is determined by its JSON form: `Any` holds plain JSON data, and a value of a union does not look like a
value of an earlier type of the union. (No paths: these cannot be written.) -/
inductive Exact : PVal → Ty → Prop
  | str (s : Str) : Exact (.str s) .str
  | int (n : Int) : Exact (.int n) .int
  | intBool (b : Bool) : Exact (.bool b) .int
  | float (a : Int) (b : Nat) : Exact (.float a b) .float
  | floatInt (n : Int) : Exact (.int n) .float
  | floatBool (b : Bool) : Exact (.bool b) .float
  | bool (b : Bool) : Exact (.bool b) .bool
  | none : Exact .none .none
  | any {v : PVal} : toJson v = some v → Exact v .any
  | literal {v : PVal} {l : List Lit} {x : Lit} : x ∈ l → litEq v x = true → Exact v (.literal l)
  | first {v : PVal} {t : Ty} {ts : List Ty} : Exact v t → Exact v (.union (t :: ts))
  | later {v w : PVal} {t : Ty} {ts : List Ty} : toJson v = some w → ¬ Fits w t → Exact v (.union ts) → Exact v (.union (t :: ts))
  | named {c : Str} {fs : List (Str × PVal)} {fields : List (Str × Ty × Option PVal)} : fs.map (·.1) = fields.map (·.1) →
      (fs.map (·.1)).Nodup → (∀ p ∈ fs, '-' ∉ p.1) → (∀ p ∈ fs.zip fields, Exact p.1.2 p.2.2.1) → Exact (.named c fs) (.named c fields)
  | data {c : Str} {fs : List (Str × PVal)} {fields : List (Str × Ty × Option PVal)} : fs.map (·.1) = fields.map (·.1) →
      (fs.map (·.1)).Nodup → (∀ p ∈ fs.zip fields, Exact p.1.2 p.2.2.1) → Exact (.data c fs) (.data c fields)
  | list {l : List PVal} {t : Ty} : (∀ v ∈ l, Exact v t) → Exact (.list l) (.list t)
  | tupleOf {l : List PVal} {t : Ty} : (∀ v ∈ l, Exact v t) → Exact (.tuple l) (.tupleOf t)
  | dict {d : List (Key × PVal)} {t : Ty} : (∀ p ∈ d, Exact p.2 t) → Exact (.dict d) (.dict t)
  | rawList {l : List PVal} : toJson (.list l) = some (.list l) → Exact (.list l) .rawList
  | rawDict {d : List (Key × PVal)} : toJson (.dict d) = some (.dict d) → Exact (.dict d) .rawDict

end Verif.Config
