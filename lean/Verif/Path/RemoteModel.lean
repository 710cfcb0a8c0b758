import Verif.Path.Collect

/-!
# Remote paths: the rclone configuration, connections and processes

Source: /repo src/megatron/energon/epathlib/rclone_config.py, epathlib/epath.py:109-187, 232-303.

Python's `configparser` is modelled from the parsed file on (sections with options, defaults), with its interpolation of `%`. An
`S3FileSystem` is the process it was made in and its arguments: making one in a process gives an instance of this process (fsspec may return one it
has made before with the same arguments in this process). Not modelled: `move` and the comparison of paths, which compare instances of
fsspec; that remote data are sent without verifying certificates (`verify: False`, line 141).
-/

namespace Verif.Path

/-! ## Where the configuration is (rclone_config.py:32-58) -/

/-- What the functions ask the machine for -/
structure Machine where
  /-- `shutil.which("rclone")` -/
  exe : Option PPath
  isFile : PPath → Bool
  isDir : PPath → Bool
  /-- the environment variable `XDG_CONFIG_HOME` -/
  xdg : Option Str
  home : PPath

/-- `path.with_name(name)` -/
def withName (p : PPath) (name : Str) : PPath := { p with names := p.names.dropLast ++ [name] }

def conf : Str := "rclone.conf".toList

/-- Lines 35-39 -/
def besideExe (M : Machine) : Option PPath :=
  match M.exe with
  | some e => if M.isFile e then (if M.isFile (withName e conf) then some (withName e conf) else none) else none
  | none => none

/-- Lines 42-46 -/
def inXdg (M : Machine) : Option PPath :=
  match M.xdg with
  | some x =>
    if x ≠ [] && M.isDir (parse x) then
      (if M.isFile ((parse x).join (parse "rclone/rclone.conf".toList)) then some ((parse x).join (parse "rclone/rclone.conf".toList)) else none)
    else none
  | none => none

/-- Lines 32-58 `get_rclone_config_path` -/
def configPath (M : Machine) : Option PPath :=
  match besideExe M with
  | some p => some p
  | none =>
    match inXdg M with
    | some p => some p
    | none =>
      if M.isFile (M.home.join (parse ".config/rclone/rclone.conf".toList)) then some (M.home.join (parse ".config/rclone/rclone.conf".toList))
      else if M.isFile (M.home.join (parse ".rclone.conf".toList)) then some (M.home.join (parse ".rclone.conf".toList))
      else none

/-! ## What it says (lines 61-87) -/

/-- A file read by `ConfigParser` (names of options in lower case, values as written) -/
structure Ini where
  sections : List (Str × List (Str × Str))
  defaults : List (Str × Str)

/-- `ConfigParser.get(section, option, raw=True)` -/
def rawGet (ini : Ini) (opts : List (Str × Str)) (option : Str) : Option Str := (opts.lookup option).or (ini.defaults.lookup option)

/-- `_KEYCRE.match`: `%\(([^)]+)\)s`, after `%(`: the name and the rest -/
def keyRef (s : Str) : Option (Str × Str) :=
  match s.takeWhile (· ≠ ')'), s.dropWhile (· ≠ ')') with
  | c :: name, ')' :: 's' :: rest => some (c :: name, rest)
  | _, _ => none

/-- `BasicInterpolation._interpolate_some`, one text; `sub` is the text for a name. The number limits the steps, it is the length of the text. -/
def interpText (sub : Str → Option Str) : Nat → Str → Option Str
  | _, [] => some []
  | 0, _ :: _ => none
  | n + 1, c :: s =>
    if c ≠ '%' then (interpText sub n s).map (c :: ·)
    else match s with
      | '%' :: s => (interpText sub n s).map ('%' :: ·)
      | '(' :: s =>
        match keyRef s with
        | some (name, rest) =>
          match sub name, interpText sub n rest with
          | some v, some t => some (v ++ t)
          | _, _ => none
        | none => none
      | _ => none

/-- The same with the texts for names, to a depth of ten (`MAX_INTERPOLATION_DEPTH`). `none`: `InterpolationError`. `lower` is `optionxform`. -/
def interp (lower : Str → Str) (vars : Str → Option Str) : Nat → Str → Option Str
  | 0, _ => none
  | d + 1, s => interpText (fun name =>
      match vars (lower name) with
      | some v => if '%' ∈ v then interp lower vars d v else some v
      | none => none) s.length s

/-- `config[section].get(option)`: outer `none`: an exception, inner `none`: `None` -/
def iniGet (lower : Str → Str) (ini : Ini) (opts : List (Str × Str)) (option : Str) : Option (Option Str) :=
  match rawGet ini opts option with
  | none => some none
  | some v => (interp lower (rawGet ini opts) 10 v).map some

/-- Lines 12-20 `ConfigEntry` -/
structure Entry where
  type : Option Str
  provider : Option Str
  key : Option Str
  secret : Option Str
  region : Option Str
  endpoint : Option Str
deriving DecidableEq

/-- Lines 68-77 -/
def readEntry (lower : Str → Str) (ini : Ini) (opts : List (Str × Str)) : Option Entry :=
  match iniGet lower ini opts "type".toList, iniGet lower ini opts "provider".toList, iniGet lower ini opts "access_key_id".toList,
      iniGet lower ini opts "secret_access_key".toList, iniGet lower ini opts "region".toList, iniGet lower ini opts "endpoint".toList with
  | some t, some p, some k, some s, some r, some e => some ⟨t, p, k, s, r, e⟩
  | _, _, _, _, _, _ => none

/-- Lines 61-80 `read_rclone_config_at_path`; `none`: an exception -/
def readEntries (lower : Str → Str) (ini : Ini) : List (Str × List (Str × Str)) → Option (List (Str × Entry))
  | [] => some []
  | (name, opts) :: l =>
    match readEntry lower ini opts, readEntries lower ini l with
    | some e, some es => some ((name, e) :: es)
    | _, _ => none

/-! ## Connections (epath.py:109-147) -/

/-- The arguments of `S3FileSystem`: `key`, `secret`, `endpoint_url`, `region_name` -/
structure Args where
  key : Option Str
  secret : Option Str
  endpoint : Option Str
  region : Option Str
deriving DecidableEq

/-- Lines 131-134 -/
def endpointUrl (e : Option Str) : Option Str :=
  match e with
  | some (c :: s) => if "http".toList.isPrefixOf (c :: s) then some (c :: s) else some ("https://".toList ++ c :: s)
  | e => e

/-- Lines 109-147 `create_s3fs_from_rclone_remote`; `none`: an exception (unknown remote; no type or another one than `s3`; the configuration cannot be
read) -/
def remoteArgs (lower : Str → Str) (ini : Ini) (remote : Str) : Option Args :=
  match readEntries lower ini ini.sections with
  | none => none
  | some es =>
    match es.lookup remote with
    | none => none
    | some e =>
      match e.type with
      | none => none
      | some t => if lower t ≠ "s3".toList then none else some ⟨e.key, e.secret, endpointUrl e.endpoint, e.region⟩

/-! ## Paths in processes -/

/-- A process: `id` tells processes apart, `pid` is what `os.getpid()` returns. -/
structure Proc where
  id : Nat
  pid : Nat
deriving DecidableEq

/-- An `S3FileSystem`: the process it was made in (with its `_pid`), the arguments -/
structure Conn where
  maker : Proc
  args : Args
deriving DecidableEq

/-- An `EPath` as an object: `fs` (`none`: the local file system) and `s3_args` -/
structure Obj where
  path : EPath
  conn : Option Conn
  args : Option Args
deriving DecidableEq

/-- Lines 35-75 `EPath(text)` in the process `me`; `remote` gives the arguments for a remote -/
def Obj.make (remote : Str → Option Args) (me : Proc) (s : Str) : Option Obj :=
  match EPath.ofStr s with
  | none => none
  | some p =>
    match p.fs with
    | .loc => some ⟨p, none, none⟩
    | .rclone r => (remote r).map fun a => ⟨p, some ⟨me, a⟩, some a⟩

/-- Lines 164-172 `fork_guard`; `none`: the assertion fails -/
def Obj.guard (me : Proc) (o : Obj) : Option Obj :=
  match o.conn with
  | none => some o
  | some c =>
    if c.maker.pid ≠ me.pid then
      match o.args with
      | none => none
      | some a => some { o with conn := some ⟨me, a⟩ }
    else some o

/-- `p.with_suffix(suffix)`, lines 284-287 -/
def EPath.withSuffix (p : EPath) (suffix : Str) : EPath :=
  { p with path := { p.path with names := match p.path.names.getLast? with
    | some w => p.path.names.dropLast ++ [Path.withSuffix w suffix]
    | none => [] } }

/-- How paths are made from paths: `parent`, `with_suffix`, `/`, and the results of `glob` (names inside of the file system) -/
inductive Derive where
  | parent
  | suffix (s : Str)
  | div (s : Str)
  | found (names : List Str)

/-- Lines 197-201, 284-287, 318-330, 256-277 -/
def Obj.derive (remote : Str → Option Args) (me : Proc) (o : Obj) : Derive → Option Obj
  | .parent => some { o with path := o.path.parent }
  | .suffix s => some { o with path := o.path.withSuffix s }
  | .div s =>
    match Obj.make remote me s with
    | none => none
    | some b =>
      match o.path.div b.path with
      | none => none
      | some p => if b.path.path.isAbs then some b else some { o with path := p }
  | .found names => some { o with path := o.path.full names }

/-- One access to a file system: the process, the path object, the connection it uses (`none`: the local file system), and the path given to the file
system -/
structure Request where
  by_ : Proc
  url : EPath
  conn : Option Conn
  names : List Str
deriving DecidableEq

/-- The processes (`os.getpid()` of each), their path objects, and the requests so far -/
structure World where
  pids : List Nat
  objs : Nat → List Obj
  log : List Request

/-- The first process has started. -/
def World.start (pid : Nat) : World := ⟨[pid], fun _ => [], []⟩

/-- What a process does; `i` is the number of one of its path objects -/
inductive Event where
  | make (proc : Nat) (url : Str)
  | derive (proc i : Nat) (d : Derive)
  /-- the child, whose `os.getpid()` is `pid`, gets a copy of the memory -/
  | fork (proc pid : Nat)
  /-- `open`, `is_dir`, `is_file`, `mkdir`, `glob`, `size`, `unlink` -/
  | access (proc i : Nat)

def World.setObjs (w : World) (proc : Nat) (l : List Obj) : World := { w with objs := fun p => if p = proc then l else w.objs p }

/-- A process appends the new object. -/
def World.push (w : World) (proc : Nat) (o : Option Obj) : World :=
  match o with
  | some o => w.setObjs proc (w.objs proc ++ [o])
  | none => w

/-- Lines 184-187, 232-282, 300-303: `fork_guard`, which keeps the new connection in the object, and the access -/
def World.access (w : World) (me : Proc) (i : Nat) : World :=
  match (w.objs me.id)[i]? with
  | some o =>
    match o.guard me with
    | some o' => { w.setObjs me.id ((w.objs me.id).set i o') with log := ⟨me, o'.path, o'.conn, o'.path.inside⟩ :: w.log }
    | none => w
  | none => w

/-- One event of a process; exceptions leave the world as it is. -/
def World.act (remote : Str → Option Args) (w : World) (me : Proc) : Event → World
  | .make _ s => w.push me.id (Obj.make remote me s)
  | .derive _ i d => w.push me.id (((w.objs me.id)[i]?).bind fun o => o.derive remote me d)
  | .fork _ pid => { w.setObjs w.pids.length (w.objs me.id) with pids := w.pids ++ [pid] }
  | .access _ i => w.access me i

def Event.proc : Event → Nat
  | .make p _ => p
  | .derive p _ _ => p
  | .fork p _ => p
  | .access p _ => p

/-- One event; nothing happens if there is no such process. -/
def World.step (remote : Str → Option Args) (w : World) (e : Event) : World :=
  match w.pids[e.proc]? with
  | some pid => w.act remote ⟨e.proc, pid⟩ e
  | none => w

def World.run (remote : Str → Option Args) (w : World) (es : List Event) : World := es.foldl (World.step remote) w

end Verif.Path
