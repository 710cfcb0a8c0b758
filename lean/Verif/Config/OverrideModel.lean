import Verif.Config.TypedModel

/-!
# Overriding configuration values

Source: /repo src/megatron/energon/typed_converter.py:629-1097 (`_split_dict_keys`, `_isinstance_deep`, `override`).

As in `Verif.Config.TypedModel`: recursive calls are limited by a number, messages of exceptions are left out. Not modelled: attributes of objects that
are neither dataclasses nor named tuples; keys of dicts other than strings and integers; that line 643 changes a dict given by the caller
(`{"a": d, "a.b": 1}` writes `d["b"]`); the classes `set`, `frozenset`.
-/

namespace Verif.Config

/-- The functions on text used by `override`, and the classes of values. -/
structure Texts where
  /-- `str.isnumeric` -/
  numeric : Str → Bool
  /-- `int(text)` (`none`: `ValueError`) -/
  int : Str → Option Int
  /-- `float(text)` -/
  float : Str → Option (Int × Nat)
  /-- `float_pattern.fullmatch`, line 629 -/
  looksFloat : Str → Bool
  /-- whitespace, for `strip` and `lstrip` -/
  blank : Char → Bool
  /-- `json.loads` -/
  json : Str → Option PVal
  /-- the dataclass or named tuple class of this name -/
  classes : Str → Option Ty

/-- The types `override` goes by: annotations, and the class `tuple` itself -/
inductive OTy where
  | ty (t : Ty)
  | rawTuple

/-- Lines 726-727: `type(value)`; `none`: a class unknown to the model -/
def typeOf (X : Texts) : PVal → Option OTy
  | .none => some (.ty .none)
  | .bool _ => some (.ty .bool)
  | .int _ => some (.ty .int)
  | .float _ _ => some (.ty .float)
  | .str _ => some (.ty .str)
  | .list _ => some (.ty .rawList)
  | .tuple _ => some .rawTuple
  | .dict _ => some (.ty .rawDict)
  | .path _ => some (.ty .path)
  | .named c _ => (X.classes c).map .ty
  | .data c _ => (X.classes c).map .ty
  | .obj c _ => some (.ty (.cls c))
  | .other c => some (.ty (.cls c))

/-- `key.partition(".")`, `none` if there is no dot -/
def firstDot : Str → Option (Str × Str)
  | [] => .none
  | c :: l =>
    if c = '.' then some ([], l)
    else match firstDot l with
      | .none => .none
      | some (a, b) => some (c :: a, b)

/-- Lines 632-649 `_split_dict_keys`; `res` is the dict made so far. -/
def splitKeys : List (Key × PVal) → List (Key × PVal) → Res (List (Key × PVal))
  | [], res => .ok res
  | (.int _, _) :: _, _ => .error .other
  | (.str k, v) :: d, res =>
    match firstDot k with
    | some (outer, inner) =>
      match lookupK res (.str outer) with
      | some (.dict m) => splitKeys d (putKey res (.str outer) (.dict (putKey m (.str inner) v)))
      | some _ => .error .other
      | .none => splitKeys d (putKey res (.str outer) (.dict [(.str inner, v)]))
    | .none =>
      if (lookupK res (.str k)).isSome then .error .other
      else splitKeys d (putKey res (.str k) v)

/-- The class of an instance -/
def classOf : PVal → Option Str
  | .named c _ => some c
  | .data c _ => some c
  | .obj c _ => some c
  | _ => .none

/-- Lines 652-679 `_isinstance_deep`. The lines 657, 660, 663, 673 take `typing.get_args` of the value, which is `()`: unpacking it is a `ValueError` for
`Literal`, `List` and `Dict`; with `Tuple`, only the empty tuple is accepted. `isinstance` with `Type[...]` or `Callable` is a `TypeError`.
(`typing` leaves no union inside of a union.) -/
def instDeep (E : Env) (v : PVal) : Ty → Res Bool
  | .any => .ok true
  | .literal _ => .error .other
  | .list _ => .error .other
  | .dict _ => .error .other
  | .tupleOf _ | .tuple _ =>
    match v with
    | .tuple [] => .ok true
    | .named _ [] => .ok true
    | _ => .ok false
  | .str => .ok (isStr v)
  | .int => .ok (isInt v)
  | .float =>
    match v with
    | .float _ _ => .ok true
    | _ => .ok false
  | .bool => .ok (isBool v)
  | .none => .ok (isNone v)
  | .rawList =>
    match v with
    | .list _ => .ok true
    | _ => .ok false
  | .rawDict =>
    match v with
    | .dict _ => .ok true
    | _ => .ok false
  | .path =>
    match v with
    | .path _ => .ok true
    | _ => .ok false
  | .named c _ | .data c _ | .cls c =>
    match classOf v with
    | some c' => .ok (c' = c || E.isSub c' c)
    | .none => .ok false
  | .type _ => .error .other
  | .callable => .error .other
  | .union _ => .error .other

def trueWords : List Str := ["True".toList, "true".toList, "1".toList]
def falseWords : List Str := ["False".toList, "false".toList, "0".toList]

/-- The result of `int(text)` and `float(text)` -/
def orOther (r : Option PVal) : Res PVal :=
  match r with
  | some v => .ok v
  | .none => .error .other

def toInt (X : Texts) (s : Str) : Res PVal := orOther ((X.int s).map .int)
def toFloat (X : Texts) (s : Str) : Res PVal := orOther ((X.float s).map fun p => .float p.1 p.2)

/-- Lines 729-747: `str`, `int`, `float`, `bool`, `NoneType` -/
def ovrNone (o : PVal) : Res PVal :=
  match o with
  | .str s => if s = "None".toList then .ok .none else .error .json
  | _ => guardJson (isNone o) o
def ovrBool (o : PVal) : Res PVal :=
  match o with
  | .str s => if s ∈ trueWords then .ok (.bool true) else if s ∈ falseWords then .ok (.bool false) else .error .json
  | _ => guardJson (isBool o) o
def ovrInt (X : Texts) (o : PVal) : Res PVal :=
  match o with
  | .str s => toInt X s
  | _ => guardJson (isInt o) o
def ovrFloat (X : Texts) (o : PVal) : Res PVal :=
  match o with
  | .str s => toFloat X s
  | _ => guardJson (isFloat o) o

/-- Lines 783-797: a text for a union; `none`: no return in the loop. `subtype is None` is never true, the argument of the union is
`NoneType`. -/
def unionText (X : Texts) (s : Str) : List Ty → Option (Res PVal)
  | [] => .none
  | .bool :: ts => if s = "True".toList then some (.ok (.bool true)) else if s = "False".toList then some (.ok (.bool false)) else unionText X s ts
  | .int :: ts => if X.numeric ((s.dropWhile X.blank).reverse.dropWhile X.blank).reverse then some (toInt X s) else unionText X s ts
  | .str :: _ => some (.ok (.str s))
  | .float :: ts => if X.looksFloat s then some (toFloat X s) else unionText X s ts
  | _ :: ts => unionText X s ts

/-- Line 798: `overrides.lstrip().startswith("{")` or `"["` -/
def looksJson (X : Texts) (s : Str) : Bool :=
  match s.dropWhile X.blank with
  | '{' :: _ => true
  | '[' :: _ => true
  | _ => false

/-- Lines 808-818: the first type of the union the present value belongs to -/
def pickType (E : Env) (v : PVal) : List Ty → Res (Option Ty)
  | [] => .ok .none
  | t :: ts =>
    match instDeep E v t with
    | .error e => .error e
    | .ok true => .ok (some t)
    | .ok false => pickType E v ts

/-- `getattr(value, name)` -/
def attr (v : PVal) (name : Str) : Option PVal :=
  match v with
  | .named _ fs => fs.lookup name
  | .data _ fs => fs.lookup name
  | _ => .none

/-- Lines 852-867, 909-925: the arguments of the new instance, for one field and for all. (`pop` matters only for the check of the rest: names of fields are
different.) -/
def ovrField (rec : PVal → PVal → Ty → Res PVal) (v : PVal) (d : List (Key × PVal)) (f : Str × Ty × Option PVal) : Res (Str × PVal) :=
  match attr v f.1 with
  | .none => .error .other
  | some old =>
    match getKey d f.1 with
    | .none => .ok (f.1, old)
    | some o =>
      match rec old o f.2.1 with
      | .ok r => .ok (f.1, r)
      | .error e => .error e
def ovrFields (rec : PVal → PVal → Ty → Res PVal) (v : PVal) (d : List (Key × PVal)) (fields : List (Str × Ty × Option PVal)) :
    Res (List (Str × PVal)) := mapE (ovrField rec v d) fields

/-- Lines 826-886 (named tuples), 887-944 (dataclasses): `make` is the instance. -/
def ovrRecord (E : Env) (rec : PVal → PVal → Ty → Res PVal) (strict : Bool) (v : PVal) (d : List (Key × PVal)) (c : Str)
    (fields : List (Str × Ty × Option PVal)) (make : List (Str × PVal) → PVal) : Res PVal :=
  match splitKeys d [] with
  | .error e => .error e
  | .ok l =>
    match undash l with
    | .none => .error .other
    | some l =>
      match ovrFields rec v l fields with
      | .error e => .error e
      | .ok kw => if strict && !onlyFields l fields then .error .json else guardJson (E.accepts c kw) (make kw)

/-- The elements of a list or tuple -/
def elems (v : PVal) : Option (List PVal) :=
  match v with
  | .list l => some l
  | .tuple l => some l
  | .named _ fs => some (fs.map (·.2))
  | _ => .none

/-- Lines 988-997: keys as indices. A key that is not numeric: `JsonValueError`; `int` of a numeric text may raise. -/
def numericKey (X : Texts) : Key → Bool
  | .str k => X.numeric k
  | .int _ => false
def indexKey (X : Texts) (kv : Key × PVal) : Res (Int × PVal) :=
  match kv.1 with
  | .str k =>
    match X.int k with
    | some i => .ok (i, kv.2)
    | .none => .error .other
  | .int _ => .error .other
def indexKeys (X : Texts) (d : List (Key × PVal)) : Res (List (Int × PVal)) :=
  if d.all fun kv => numericKey X kv.1 then mapE (indexKey X) d else .error .json

/-- `{int(key): value ...}`: the last one counts -/
def atIndex (l : List (Int × PVal)) (i : Int) : Option PVal := ((l.reverse.find? fun p => p.1 = i).map (·.2))

/-- `max(...)` -/
def maxIndex : List (Int × PVal) → Option Int
  | [] => .none
  | p :: l =>
    match maxIndex l with
    | .none => some p.1
    | some m => some (if m < p.1 then p.1 else m)

/-- Lines 1020-1032: one element -/
def ovrElem (rec : PVal → PVal → Res PVal) (l : List (Int × PVal)) (xs : List PVal) (i : Nat) : Res PVal :=
  match xs[i]? with
  | .none => .error .other
  | some old =>
    match atIndex l i with
    | some o => rec old o
    | .none => .ok old

/-- Line 1000: `inner_type is None and new_max_idx >= len(inner_types)` -/
def beyond (bound : Option Nat) (m : Int) : Bool :=
  match bound with
  | some b => decide ((b : Int) ≤ m)
  | .none => false

/-- Lines 988-1034: lists and tuples. `bound`: the number of types of a tuple of fixed size. (Indices are not negative: keys are numeric.) -/
def ovrList (X : Texts) (rec : PVal → PVal → Res PVal) (bound : Option Nat) (v : PVal) (d : List (Key × PVal)) (make : List PVal → PVal) : Res PVal :=
  match splitKeys d [] with
  | .error e => .error e
  | .ok l =>
    match indexKeys X l with
    | .error e => .error e
    | .ok l =>
      match maxIndex l, elems v with
      | some m, some xs =>
        if beyond bound m then .error .json
        else if (List.range m.toNat).all fun (i : Nat) => decide (i < xs.length) || (atIndex l i).isSome then
          (mapE (ovrElem rec l xs) (List.range (max (m.toNat + 1) xs.length))).map make
        else .error .json
      | _, _ => .error .other

/-- `a, b = value` -/
def unpack2 : PVal → Option (PVal × PVal)
  | .list [a, b] => some (a, b)
  | .tuple [a, b] => some (a, b)
  | .named _ [(_, a), (_, b)] => some (a, b)
  | .str [a, b] => some (.str [a], .str [b])
  | .dict [(.str a, _), (.str b, _)] => some (.str a, .str b)
  | _ => .none

/-- Lines 1062-1077: `for idx, (key, subvalue) in value.items()`: the *values* of the dict are unpacked. `rest`: the overrides not yet
taken. -/
def ovrItems (rec : PVal → PVal → Res PVal) : List (Key × PVal) → List (Key × PVal) → List (Key × PVal) → Res (List (Key × PVal) × List (Key × PVal))
  | [], rest, res => .ok (res, rest)
  | (_, w) :: l, rest, res =>
    match unpack2 w with
    | some (.str k, sub) =>
      match getKey rest k with
      | .none => ovrItems rec l rest (putKey res (.str k) sub)
      | some o =>
        match rec sub o with
        | .error e => .error e
        | .ok r => ovrItems rec l (popKey rest k) (putKey res (.str k) r)
    | some (.int k, sub) => ovrItems rec l rest (putKey res (.int k) sub)
    | _ => .error .other

/-- Lines 1078-1094: the other keys are added. -/
def ovrNew (X : Texts) (cv : PVal → Res PVal) : List (Key × PVal) → List (Key × PVal) → Res (List (Key × PVal))
  | [], res => .ok res
  | (k, .str s) :: rest, res =>
    match X.json s with
    | .none => .error .other
    | some raw =>
      match cv raw with
      | .error e => .error e
      | .ok v => ovrNew X cv rest (putKey res k v)
  | _ :: _, _ => .error .json

/-- Lines 1035-1095: dicts -/
def ovrDict (X : Texts) (rec : PVal → PVal → Res PVal) (cv : PVal → Res PVal) (v : PVal) (d : List (Key × PVal)) : Res PVal :=
  match splitKeys d [], v with
  | .error e, _ => .error e
  | .ok l, .dict items =>
    match undash l with
    | .none => .error .other
    | some l =>
      match ovrItems rec items l [] with
      | .error e => .error e
      | .ok (res, rest) => (ovrNew X cv rest res).map .dict
  | .ok _, _ => .error .other

/-- A text for a structure is JSON data for the whole of it (lines 840-848, 897-905, 979-987, 1050-1058). -/
def fromText (X : Texts) (cv : PVal → Res PVal) (s : Str) : Res PVal :=
  match X.json s with
  | .none => .error .other
  | some raw => cv raw

/-- Lines 682-1097 `override`, with the type given; the branches in the order of the code. -/
def ovr (E : Env) (X : Texts) (strict imports : Bool) : Nat → PVal → PVal → OTy → Res PVal
  | 0, _, _, _ => .error .fuel
  | n + 1, v, o, .rawTuple =>
    match o with
    | .str s => fromText X (fun raw => conv E strict imports n raw (.cls "tuple".toList)) s
    | .dict d => ovrList X (fun old o => ovr E X strict imports n old o (.ty .any)) .none v d .tuple
    | _ => .error .json
  | n + 1, v, o, .ty T =>
    match T with
    | .str => guardJson (isStr o) o
    | .int => ovrInt X o
    | .float => ovrFloat X o
    | .bool => ovrBool o
    | .none => ovrNone o
    | .any =>
      match o with
      | .str s =>
        if X.numeric s then toInt X s
        else if s = "True".toList then .ok (.bool true)
        -- line 756
        else if s = "False".toList then .ok (.bool true)
        else .ok o
      | _ =>
        match v with
        | .dict _ => ovr E X strict imports n v o (.ty .rawDict)
        | .list _ => ovr E X strict imports n v o (.ty .rawList)
        | .tuple _ => ovr E X strict imports n v o .rawTuple
        | .named c _ =>
          match X.classes c with
          | some t => ovr E X strict imports n v o (.ty t)
          | .none => .error .other
        | _ => .error .json
    | .literal l =>
      match l with
      | [x] => if litEq o x then .ok (match x with | .none => .none | .bool b => .bool b | .int i => .int i | .str s => .str s) else .error .json
      | _ => .error .other
    | .union ts =>
      match o with
      | .str s =>
        match unionText X s ts with
        | some r => r
        | .none =>
          if looksJson X s then fromText X (fun raw => conv E strict imports n raw (.union ts)) s
          else conv E strict imports n (.str s) (.union ts)
      | _ =>
        match pickType E v ts with
        | .error e => .error e
        | .ok .none => .error .json
        | .ok (some t) => ovr E X strict imports n v o (.ty t)
    | .named c fields =>
      match o with
      | .str s => fromText X (fun raw => conv E strict imports n raw (.named c fields)) s
      | .dict d => ovrRecord E (fun old o t => ovr E X strict imports n old o (.ty t)) strict v d c fields (.named c)
      | _ => .error .json
    | .data c fields =>
      match o with
      | .str s => fromText X (fun raw => conv E strict imports n raw (.data c fields)) s
      | .dict d => ovrRecord E (fun old o t => ovr E X strict imports n old o (.ty t)) strict v d c fields (.data c)
      | _ => .error .json
    | .list t =>
      match o with
      | .str s => fromText X (fun raw => conv E strict imports n raw (.list t)) s
      | .dict d => ovrList X (fun old o => ovr E X strict imports n old o (.ty t)) .none v d .list
      | _ => .error .json
    | .rawList =>
      match o with
      | .str s => fromText X (fun raw => conv E strict imports n raw .rawList) s
      | .dict d => ovrList X (fun old o => ovr E X strict imports n old o (.ty .any)) .none v d .list
      | _ => .error .json
    | .tupleOf t =>
      match o with
      | .str s => fromText X (fun raw => conv E strict imports n raw (.tupleOf t)) s
      | .dict d => ovrList X (fun old o => ovr E X strict imports n old o (.ty t)) .none v d .tuple
      | _ => .error .json
    | .tuple ts =>
      match o with
      | .str s => fromText X (fun raw => conv E strict imports n raw (.tuple ts)) s
      -- line 969: `inner_type = None`, so the type of the element is `type(value[idx])`
      | .dict d => ovrList X (fun old o =>
          match typeOf X old with
          | some T => ovr E X strict imports n old o T
          | .none => .error .other) (some ts.length) v d .tuple
      | _ => .error .json
    | .dict t =>
      match o with
      | .str s => fromText X (fun raw => conv E strict imports n raw (.dict t)) s
      | .dict d => ovrDict X (fun old o => ovr E X strict imports n old o (.ty t)) (fun raw => conv E strict imports n raw t) v d
      | _ => .error .json
    | .rawDict =>
      match o with
      | .str s => fromText X (fun raw => conv E strict imports n raw .rawDict) s
      | .dict d => ovrDict X (fun old o => ovr E X strict imports n old o (.ty .any)) (fun raw => conv E strict imports n raw .any) v d
      | _ => .error .json
    | _ => .error .other

/-- `override(value, overrides, strict, allow_imports=...)` -/
def override (E : Env) (X : Texts) (strict imports : Bool) (n : Nat) (v o : PVal) : Res PVal :=
  match typeOf X v with
  | some T => ovr E X strict imports n v o T
  | .none => .error .other

end Verif.Config
