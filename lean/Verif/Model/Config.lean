import Verif.Model.Py
import Mathlib.Logic.Function.Basic

/-!
# Preferences: `config.py`

The file system is a partial function from paths (lists of names, from the root) to directories and files.
Not modelled: permissions, links, full disks, other processes.  `configparser` is a pair of arbitrary
functions: what `write` puts into a file, and what an empty parser has become after reading a text.
-/

namespace QInfer

/-- What a path can be. (config.py 61-87.) -/
inductive Node
  | dir
  | file (text : String)
  deriving DecidableEq, Repr

/-- Whether it is a file. (config.py 61-87.) -/
def Node.isFile : Node → Bool
  | .dir => false
  | .file _ => true

/-- A file system. (config.py 61-87.) -/
abbrev Disk := List String → Option Node

/-- `os.makedirs(path)` as called at config.py 64: creates the path and what is missing above it.  Raises if
a component is a file. -/
def makedirs (d : Disk) (path : List String) : Except PyErr Disk :=
  if (List.range (path.length + 1)).any fun k => (d (path.take k)).any Node.isFile then .error .other
  else .ok fun p => if p <+: path then some .dir else d p

/-- `open(path, 'w')` and writing `text`, config.py 86-87: the directory has to exist, and the path must not
be a directory. -/
def writeFile (d : Disk) (path : List String) (text : String) : Except PyErr Disk :=
  if d path.dropLast = some .dir ∧ d path ≠ some .dir then
    .ok (Function.update d path (some (.file text)))
  else .error .other

/-- `ensuredir`, config.py 61-64. -/
def ensuredir (d : Disk) (path : List String) : Except PyErr Disk :=
  match d path.dropLast with
  | none => makedirs d path.dropLast
  | some _ => .ok d

/-- `sys.platform` and the results of `os.path.expanduser('~')` and `os.path.expandvars('%APPDATA%')`.
(config.py 67-72.) -/
structure Machine where
  platform : String
  home : List String
  appdata : List String

/-- The path of `preffilename`, config.py 67-74; `none` is `NotImplemented`. -/
def prefPath (m : Machine) : Option (List String) :=
  if m.platform.startsWith "linux" || m.platform.startsWith "darwin" || m.platform.startsWith "cygwin" then
    some (m.home ++ [".config", "qinfer.conf"])
  else if m.platform.startsWith "win" then some (m.appdata ++ ["qinfer.conf"])
  else none

/-- `preffilename()`, config.py 66-77, with its effect on the disk. -/
def preffilename (m : Machine) (d : Disk) : Except PyErr (Disk × Option (List String)) :=
  match prefPath m with
  | none => .ok (d, none)
  | some p => do
    let d ← ensuredir d p
    .ok (d, some p)

/-- `read_config()`, config.py 79-83: `ConfigParser.read` skips files that cannot be opened, which includes
directories; `NotImplemented` can be neither opened nor iterated over.  `SafeConfigParser` is taken to exist,
as it does before Python 3.12. -/
def readConfig {P : Type} (empty : P) (parse : String → Except PyErr P) (m : Machine) (d : Disk) :
    Except PyErr (Disk × P) := do
  let (d, p) ← preffilename m d
  match p with
  | none => .error .typeError
  | some p =>
    match d p with
    | some (.file text) => do
      let c ← parse text
      .ok (d, c)
    | _ => .ok (d, empty)

/-- `save_config(parser)`, config.py 85-87. -/
def saveConfig {P : Type} (print : P → String) (m : Machine) (d : Disk) (c : P) : Except PyErr Disk := do
  let (d, p) ← preffilename m d
  match p with
  | none => .error .typeError
  | some p => writeFile d p (print c)

end QInfer
