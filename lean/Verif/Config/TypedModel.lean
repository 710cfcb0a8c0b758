import Verif.Config.FieldModel

/-!
# Typed configurations

Source: /repo src/megatron/energon/typed_converter.py:42-631 (`_check_instance_type`, `raw_to_instance`, `raw_to_typed`,
`safe_call_function`), 1103-1131 (`to_json_object`), dataset_config.py:18-50 (`load_config`).

Values and annotations are finite trees. Recursive calls are limited by a number (`fuel`), which is no parameter of the code: the theorems are about all
numbers, and `fuel` exhausted is an outcome of its own. Messages of exceptions are left out. Not modelled: `Set[...]`, annotations that are
`None` itself instead of `NoneType`, metaclasses as annotations, objects with `__dash_keys__`.
-/

namespace Verif.Config

/-- Keys of dicts (yaml allows other keys than strings) -/
inductive Key where
  | str (s : Str)
  | int (n : Int)
  deriving DecidableEq

/-- Python values -/
inductive PVal where
  | none
  | bool (b : Bool)
  | int (n : Int)
  /-- a float, by its value -/
  | float (num : Int) (den : Nat)
  | str (s : Str)
  | list (l : List PVal)
  | tuple (l : List PVal)
  | dict (l : List (Key × PVal))
  /-- an `EPath` -/
  | path (p : Str)
  /-- an instance of a named tuple class with these fields -/
  | named (cls : Str) (fields : List (Str × PVal))
  /-- an instance of a dataclass with these (init) fields -/
  | data (cls : Str) (fields : List (Str × PVal))
  /-- the instance made by calling another class with these arguments -/
  | obj (cls : Str) (args : List (Str × PVal))
  /-- a class or function itself, the result of calling a function, any other object -/
  | other (name : Str)

/-- Arguments of `Literal` -/
inductive Lit where
  | none
  | bool (b : Bool)
  | int (n : Int)
  | str (s : Str)

/-- Type annotations -/
inductive Ty where
  | str | int | float | bool | none
  | any
  | literal (l : List Lit)
  | union (l : List Ty)
  /-- a class made by `NamedTuple`: fields with types and default values -/
  | named (cls : Str) (fields : List (Str × Ty × Option PVal))
  /-- a dataclass: its init fields with types and default values -/
  | data (cls : Str) (fields : List (Str × Ty × Option PVal))
  | list (t : Ty)
  /-- `Tuple[t, ...]` -/
  | tupleOf (t : Ty)
  /-- `Tuple[t1, t2, ..., tn]` -/
  | tuple (l : List Ty)
  /-- `Dict[str, t]` -/
  | dict (t : Ty)
  | rawList
  | rawDict
  | path
  /-- `Type[cls]` -/
  | type (cls : Str)
  | callable
  /-- any other class -/
  | cls (name : Str)

/-- The exceptions: `JsonValueError`, any other one; `fuel`: the limit of the model is reached. -/
inductive TErr where
  | json
  | other
  | fuel
  deriving DecidableEq

abbrev Res (α : Type) := Except TErr α

/-- Parameters of functions: keyword parameter, `*args`, `**kwargs` (positional only ones are not modelled). -/
inductive PKind where
  | normal
  | varArgs
  | varKw
  deriving DecidableEq

/-- A parameter; the type is `any` if there is no annotation. -/
structure Param where
  name : Str
  kind : PKind
  ty : Ty
  default : Option PVal

/-- What is found in a module -/
inductive Obj where
  /-- a class (no dataclass, no named tuple: those are called in the same way): name, the builtin container it is derived from (if any),
  parameters of the constructor -/
  | cls (name : Str) (base : Option Str) (params : List Param)
  | fn (name : Str) (params : List Param)
  | value (name : Str)

/-- The surroundings: modules, the namespace of `megatron.energon`, `issubclass` by names, `EPath(...)` of a string (`none`: raises), whether the
constructor of a (data)class accepts its arguments, what a function returns (`none`: raises). -/
structure Env where
  module : Str → Option (Str → Option Obj)
  energon : Str → Option Obj
  isSub : Str → Str → Bool
  path : Str → Option Str
  accepts : Str → List (Str × PVal) → Bool
  call : Str → List (Str × PVal) → Option PVal

/-! ## Primitive values -/

/-- Line 222: `isinstance(raw_data, inst_type)`, or an int for a float. A `bool` is an `int`. -/
def isStr : PVal → Bool
  | .str _ => true
  | _ => false
def isInt : PVal → Bool
  | .int _ => true
  | .bool _ => true
  | _ => false
def isFloat : PVal → Bool
  | .float _ _ => true
  | v => isInt v
def isBool : PVal → Bool
  | .bool _ => true
  | _ => false
def isNone : PVal → Bool
  | .none => true
  | _ => false

/-- `value == literal` in Python: `True == 1 == 1.0` -/
def litEq : PVal → Lit → Bool
  | .none, .none => true
  | .str s, .str t => s = t
  | .bool b, .bool c => b = c
  | .bool b, .int n => (if b then 1 else 0) = n
  | .int m, .bool c => m = (if c then 1 else 0)
  | .int m, .int n => m = n
  | .float num den, .int n => den ≠ 0 ∧ num = n * den
  | .float num den, .bool c => den ≠ 0 ∧ num = (if c then 1 else 0) * den
  | _, _ => false

def guardJson (b : Bool) (v : PVal) : Res PVal := if b then .ok v else .error .json

/-! ## Dicts -/

def lookupK (l : List (Key × PVal)) (k : Key) : Option PVal :=
  match l with
  | [] => .none
  | (k', v) :: l => if k' = k then some v else lookupK l k

/-- `d.get(name)` -/
def getKey (l : List (Key × PVal)) (k : Str) : Option PVal := lookupK l (.str k)

/-- `d[k] = v` -/
def putKey (l : List (Key × PVal)) (k : Key) (v : PVal) : List (Key × PVal) :=
  match l with
  | [] => [(k, v)]
  | (k', w) :: l => if k' = k then (k', v) :: l else (k', w) :: putKey l k v

/-- `d.pop(k)`, the rest -/
def popKey (l : List (Key × PVal)) (k : Str) : List (Key × PVal) := l.filter fun p => p.1 ≠ .str k

/-- `{**a, **b}` -/
def updateKeys (a b : List (Key × PVal)) : List (Key × PVal) := b.foldl (fun a kv => putKey a kv.1 kv.2) a

/-- Line 293: `{key.replace("-", "_"): val ...}`; `none`: `AttributeError` for a key that is no string. (`__dash_keys__` defaults to the *string*
`"False"`, so this is done for every class without it.) -/
def undash (l : List (Key × PVal)) : Option (List (Key × PVal)) :=
  l.foldl (fun acc kv =>
    match acc, kv.1 with
    | some a, .str s => some (putKey a (.str (s.map fun c => if c = '-' then '_' else c)) kv.2)
    | _, _ => .none) (some [])

/-! ## Conversion of parts -/

/-- All elements, in order, up to the first exception. -/
def mapE {α β : Type} (f : α → Res β) : List α → Res (List β)
  | [] => .ok []
  | a :: l =>
    match f a with
    | .error e => .error e
    | .ok b =>
      match mapE f l with
      | .error e => .error e
      | .ok m => .ok (b :: m)

/-- Lines 295-305, 335-356: the value of each field: from the data, or the default value, which is converted, too. -/
def convFields (rec : PVal → Ty → Res PVal) (d : List (Key × PVal)) (fields : List (Str × Ty × Option PVal)) : Res (List (Str × PVal)) :=
  mapE (fun f =>
    match (getKey d f.1).or f.2.2 with
    | .none => .error .json
    | some v =>
      match rec v f.2.1 with
      | .ok r => .ok (f.1, r)
      | .error e => .error e) fields

/-- Lines 306, 357: `set(raw_data).issubset(fields)` -/
def onlyFields (d : List (Key × PVal)) (fields : List (Str × Ty × Option PVal)) : Bool :=
  d.all fun p => fields.any fun f => p.1 = .str f.1

/-- Lines 245-286: the first type of a union that fits. Only `JsonValueError` is caught. -/
def firstOf (f : Ty → Res PVal) : List Ty → Res PVal
  | [] => .error .json
  | t :: ts =>
    match f t with
    | .ok v => .ok v
    | .error .json => firstOf f ts
    | .error e => .error e

/-! ## Instances of named classes -/

def moduleKey : Str := "__module__".toList
def classKey : Str := "__class__".toList
def functionKey : Str := "__function__".toList

/-- Lines 234-238: the dict tells what to instantiate. -/
def wantsImport (d : List (Key × PVal)) : Bool :=
  (getKey d moduleKey).isSome && ((getKey d classKey).isSome || (getKey d functionKey).isSome)

mutual
/-- Lines 42-57 `_check_instance_type(cls, inst_type)`. `base`: the builtin class `cls` is derived from. For an ordinary class `inst_type`, line 57 is
`not issubclass(inst_type, type) or ...`, which is `True`. -/
def checkInst (base : Option Str) : Ty → Bool
  | .union l => checkInsts base l
  | .list _ => base = some "list".toList
  | .dict _ => base = some "dict".toList
  | .tuple _ => base = some "tuple".toList
  | .tupleOf _ => base = some "tuple".toList
  | .literal _ => false
  | .type _ => base = some "type".toList
  | .callable => false
  | _ => true
def checkInsts (base : Option Str) : List Ty → Bool
  | [] => false
  | t :: ts => checkInst base t || checkInsts base ts
end

/-- Lines 550-590 `safe_call_function` with a dict: the keyword arguments and the unused rest of the dict. -/
def bindArgs (rec : PVal → Ty → Res PVal) : List Param → List (Key × PVal) → List (Str × PVal) → Res (List (Str × PVal) × List (Key × PVal))
  | [], d, kw => .ok (kw, d)
  | p :: ps, d, kw =>
    match p.kind with
    | .varArgs => bindArgs rec ps d kw
    | .varKw =>
      match mapE (fun kv : Key × PVal =>
        match kv.1 with
        | .int _ => .error .other
        | .str k => match rec kv.2 p.ty with
          | .ok v => .ok (k, v)
          | .error e => .error e) d with
      | .error e => .error e
      | .ok more => bindArgs rec ps [] (kw ++ more)
    | .normal =>
      match (getKey d p.name).or p.default with
      | .none => .error .other
      | some v =>
        match rec v p.ty with
        | .error e => .error e
        | .ok r => bindArgs rec ps (popKey d p.name) (kw ++ [(p.name, r)])

/-- Lines 529-631 `safe_call_function` with a dict -/
def callWith (E : Env) (rec : PVal → Ty → Res PVal) (strict : Bool) (f : Obj) (d : List (Key × PVal)) : Res PVal :=
  match f with
  | .value _ => .error .other
  | .cls name _ params =>
    match bindArgs rec params d [] with
    | .error e => .error e
    | .ok (kw, rest) =>
      if strict && !rest.isEmpty then .error .other
      else if E.accepts name kw then .ok (.obj name kw) else .error .other
  | .fn name params =>
    match bindArgs rec params d [] with
    | .error e => .error e
    | .ok (kw, rest) =>
      if strict && !rest.isEmpty then .error .other
      else match E.call name kw with
        | some v => .ok v
        | .none => .error .other

/-- The name as a string; `importlib.import_module` and `getattr` of anything else raise. -/
def asStr : PVal → Option Str
  | .str s => some s
  | _ => .none

/-- Lines 118-128: import the module (or take it from `megatron.energon`) and get the object. -/
def importObj (E : Env) (m o : PVal) : Res Obj :=
  match asStr m, asStr o with
  | some m, some o =>
    match E.module m with
    | some ns => match ns o with
      | some x => .ok x
      | .none => .error .other
    | .none => match E.energon o with
      | some x => .ok x
      | .none => .error .other
  | _, _ => .error .other

/-- Lines 60-158 `raw_to_instance`. `dflt`: the class used if none is named, for `inst_type` itself. -/
def instantiate (E : Env) (rec : PVal → Ty → Res PVal) (strict : Bool) (d : List (Key × PVal)) (T : Ty) (dflt : Option Obj) : Res PVal :=
  let m := getKey d moduleKey
  let d := popKey d moduleKey
  match T with
  | .type c =>
    match m, getKey d classKey with
    | some m, some o =>
      match importObj E m o with
      | .error e => .error e
      | .ok (.cls name _ _) => if E.isSub name c then .ok (.other name) else .error .json
      | .ok _ => .error .json
    | _, _ => .error .json
  | .callable =>
    match m, getKey d functionKey with
    | some m, some o =>
      match importObj E m o with
      | .error e => .error e
      | .ok (.cls name _ _) => .ok (.other name)
      | .ok (.fn name _) => .ok (.other name)
      | .ok (.value _) => .error .json
    | _, _ => .error .json
  | _ =>
    match m with
    | .none =>
      -- lines 110-117: the names are removed if present, and `cls = inst_type`
      let d := if (getKey d classKey).isSome then popKey d classKey else popKey d functionKey
      match dflt with
      | .none => .error .other
      | some f => callWith E rec strict f d
    | some m =>
      match getKey d classKey with
      | some o =>
        match importObj E m o with
        | .error e => .error e
        | .ok (.cls name base ps) =>
          if checkInst base T then callWith E rec strict (.cls name base ps) (popKey d classKey) else .error .json
        | .ok _ => .error .json
      | .none =>
        match getKey d functionKey with
        -- `UnboundLocalError`
        | .none => .error .other
        | some o =>
          match importObj E m o with
          | .error e => .error e
          | .ok (.value _) => .error .json
          | .ok f => callWith E rec strict f (popKey d functionKey)

/-! ## The conversion -/

/-- Lines 161-526 `raw_to_typed`; the branches in the order of the code. A missing value (line 208) is dealt with in `convFields`. -/
def conv (E : Env) (strict imports : Bool) : Nat → PVal → Ty → Res PVal
  | 0, _, _ => .error .fuel
  | n + 1, raw, T =>
    match T with
    | .str => guardJson (isStr raw) raw
    | .int => guardJson (isInt raw) raw
    | .float => guardJson (isFloat raw) raw
    | .bool => guardJson (isBool raw) raw
    | .none => guardJson (isNone raw) raw
    | .any =>
      match raw with
      | .dict d => if imports && wantsImport d then instantiate E (conv E strict true n) strict d .any .none else .ok raw
      | _ => .ok raw
    | .literal l => guardJson (l.any (litEq raw)) raw
    | .union ts => firstOf (conv E strict imports n raw) ts
    | .named c fields =>
      match raw with
      | .dict d =>
        match undash d with
        | .none => .error .other
        | some d =>
          match convFields (conv E strict imports n) d fields with
          | .error e => .error e
          | .ok kw => if strict && !onlyFields d fields then .error .json else guardJson (E.accepts c kw) (.named c kw)
      | _ => .error .json
    | .data c fields =>
      match raw with
      | .dict d =>
        match convFields (conv E strict imports n) d fields with
        | .error e => .error e
        | .ok kw => if strict && !onlyFields d fields then .error .json else guardJson (E.accepts c kw) (.data c kw)
      | _ => .error .json
    | .list t =>
      match raw with
      | .list l => (mapE (fun v => conv E strict imports n v t) l).map .list
      | _ => .error .json
    | .tupleOf t =>
      match raw with
      | .list l => (mapE (fun v => conv E strict imports n v t) l).map .tuple
      | _ => .error .json
    | .tuple ts =>
      match raw with
      | .list l =>
        if l.length ≠ ts.length then .error .json
        -- line 459: a list is returned
        else (mapE (fun vt : PVal × Ty => conv E strict imports n vt.1 vt.2) (l.zip ts)).map .list
      | _ => .error .json
    | .dict t =>
      match raw with
      | .dict d =>
        (mapE (fun kv : Key × PVal =>
          match conv E strict imports n kv.2 t with
          | .ok v => .ok (kv.1, v)
          | .error e => .error e) d).map .dict
      | _ => .error .json
    | .rawList =>
      match raw with
      | .list _ => .ok raw
      | _ => .error .json
    | .rawDict =>
      match raw with
      | .dict _ => .ok raw
      | _ => .error .json
    | .path =>
      match raw with
      | .str s =>
        match E.path s with
        | some p => .ok (.path p)
        | .none => .error .other
      | .path _ => .ok raw
      | _ => .error .json
    | T =>
      match raw with
      | .dict d => if imports && wantsImport d then instantiate E (conv E strict true n) strict d T .none else .ok raw
      | _ => .ok raw

/-- dataset_config.py:18-50 `load_config` for a dict: the configuration is put over the default arguments, then the class named there (or the default
class `f`, with annotation `T`) is called. -/
def loadConfig (E : Env) (strict : Bool) (fuel : Nat) (defaults data : List (Key × PVal)) (T : Ty) (f : Obj) : Res PVal :=
  instantiate E (conv E strict true fuel) strict (updateKeys defaults data) T (some f)

/-! ## Writing -/

mutual
/-- Lines 1103-1131 `to_json_object`; `none`: `RuntimeError`. -/
def toJson : PVal → Option PVal
  | .none => some .none
  | .bool b => some (.bool b)
  | .int n => some (.int n)
  | .float a b => some (.float a b)
  | .str s => some (.str s)
  | .named _ fs => (toJsonFields fs).map .dict
  | .data _ fs => (toJsonFields fs).map .dict
  | .list l => (toJsons l).map .list
  | .tuple l => (toJsons l).map .list
  | .dict l => (toJsonDict l).map .dict
  | .path _ => .none
  | .obj _ _ => .none
  | .other _ => .none
def toJsons : List PVal → Option (List PVal)
  | [] => some []
  | v :: l =>
    match toJson v, toJsons l with
    | some w, some m => some (w :: m)
    | _, _ => .none
def toJsonDict : List (Key × PVal) → Option (List (Key × PVal))
  | [] => some []
  | (k, v) :: l =>
    match toJson v, toJsonDict l with
    | some w, some m => some ((k, w) :: m)
    | _, _ => .none
def toJsonFields : List (Str × PVal) → Option (List (Key × PVal))
  | [] => some []
  | (k, v) :: l =>
    match toJson v, toJsonFields l with
    | some w, some m => some ((.str k, w) :: m)
    | _, _ => .none
end

end Verif.Config
