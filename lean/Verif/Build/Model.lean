import Verif.Text.ModelUncaught
/-! # Model of `lib/util/cargo-query.py` and of what `meson.build` makes of it

Texts are lists of characters. A TOML table is a list of keys and values in the order of the file, as `tomllib` keeps it. `none` is an exception of the
script, for which Meson gives up (`check: true`, meson.build 47). -/
namespace Verif.Build

abbrev Text := List Char

/-- The value of a lint, cargo-query.py 20-21: a level, a table that may have a level, or something else. -/
inductive Lint
  | text (level : Text)
  | table (level : Option Text)
  | other
deriving DecidableEq, Repr

/-- The tables `workspace.lints.clippy` and `workspace.lints.rust` of `Cargo.toml`, if they are there. -/
structure Lints where
  clippy : Option (List (Text × Lint))
  rust : Option (List (Text × Lint))

/-- `v['level'] if isinstance(v, dict) else v`, cargo-query.py 21. What is no text is no level either. -/
def levelOf : Lint → Option (Option Text)
  | .text l => some (some l)
  | .table (some l) => some (some l)
  | .table none => none
  | .other => some none

/-- The inner loop of `toml_lints`, cargo-query.py 19-24. -/
def lintLoop : List (Text × Lint) → Text → Option Text
  | [], acc => some acc
  | (k, v) :: l, acc =>
    match levelOf v with
    | none => none
    | some level =>
      if level = some (chars! "allow") then
        lintLoop l (acc ++ (if acc.isEmpty then [] else [',']) ++ (chars! "clippy::") ++ k)
      else lintLoop l acc

/-- `toml_lints`, cargo-query.py 16-25: both groups, in this order. -/
def toml_lints (ws : Lints) : Option Text := do
  let c ← ws.clippy
  let acc ← lintLoop c []
  let r ← ws.rust
  lintLoop r acc

/-- What is printed, cargo-query.py 48-51: the versions of the three packages and the lints, a line each. -/
def query (osi sys tmp : Text) (ws : Lints) : Option Text := do
  let l ← toml_lints ws
  some (osi ++ ['\n'] ++ (sys ++ ['\n']) ++ (tmp ++ ['\n']) ++ (l ++ ['\n']))

/-- Where `str.splitlines` of Python ends a line, which is what Meson uses (meson.build 51). -/
def isBreak (c : Char) : Bool :=
  c = '\n' || c = '\r' || c = '\x0b' || c = '\x0c' || c = '\x1c' || c = '\x1d' || c = '\x1e' || c = '\u0085' || c = ' ' || c = ' '

/-- `str.splitlines`: `cur` is the line so far. There is no line behind the last break. -/
def splitlines (cur : Text) : Text → List Text
  | [] => if cur.isEmpty then [] else [cur]
  | '\r' :: '\n' :: l => cur :: splitlines [] l
  | c :: l => if isBreak c then cur :: splitlines [] l else splitlines (cur ++ [c]) l

/-- `str.split` with a separator of one character, meson.build 58-60, 99. -/
def split (sep : Char) (cur : Text) : Text → List Text
  | [] => [cur]
  | c :: l => if c = sep then cur :: split sep [] l else split sep (cur ++ [c]) l

/-- What Meson takes from the script, meson.build 36-60: the versions and the line of lints (an index that is out of range is an error), and the major
versions that dependencies are named after. -/
structure Queried where
  versions : Text × Text × Text
  majors : Text × Text × Text
  lints : Text
deriving DecidableEq

def major (v : Text) : Text := (split '.' [] v).headD []

def queried (out : Text) : Option Queried := do
  let q := splitlines [] out
  let o ← q[0]?
  let s ← q[1]?
  let t ← q[2]?
  let l ← q[3]?
  some ⟨(o, s, t), (major o, major s, major t), l⟩

/-- The arguments for lints, meson.build 99-101. -/
def lintArgs (ws_lints : Text) : List Text := (split ',' [] ws_lints).flatMap fun v => [chars! "-A", v]

/-- The options of the build, meson_options.txt. -/
structure Options where
  doctest : Bool
  libc : Bool
  polonius : Bool
  std : Bool

inductive Lib | osi | sys | tmp
deriving DecidableEq

/-- The configuration that each library is compiled with. -/
inductive Cfg | featureLibc | featureStd | polonius
deriving DecidableEq

/-- The `--cfg` arguments, meson.build 107-111, 132-143, 164. -/
def mesonCfg (o : Options) : Lib → List Cfg
  | .osi => if o.std then [.featureStd] else []
  | .sys => (if o.libc then [.featureLibc] else []) ++ (if o.std then [.featureStd] else [])
  | .tmp => []

/-- Features selected with Cargo, and whether `--cfg polonius` is in the flags for the compiler. -/
structure Features where
  osiStd : Bool
  sysLibc : Bool
  sysStd : Bool
  polonius : Bool

/-- What Cargo makes of it (lib/osi/Cargo.toml 22-23, lib/sys/Cargo.toml 22-28, lib/tmp/Cargo.toml): no feature implies one of another package, and the flags
for the compiler go to all packages. -/
def cargoCfg (f : Features) : Lib → List Cfg
  | .osi => (if f.osiStd then [.featureStd] else []) ++ (if f.polonius then [.polonius] else [])
  | .sys => (if f.sysLibc then [.featureLibc] else []) ++ (if f.sysStd then [.featureStd] else []) ++ (if f.polonius then [.polonius] else [])
  | .tmp => if f.polonius then [.polonius] else []

/-- The files that the script reads, cargo-query.py 31-47, relative to the source tree. -/
def filesRead : List Text := [chars! "Cargo.toml", chars! "lib/osi/Cargo.toml", chars! "lib/sys/Cargo.toml", chars! "lib/tmp/Cargo.toml"]

/-- The files that are named for Meson to watch, meson.build 41-44. -/
def filesNamed : List Text := [chars! "Cargo.toml", chars! "lib/osi/src/Cargo.toml", chars! "lib/sys/src/Cargo.toml",
  chars! "lib/tmp/src/Cargo.toml"]

/-- Meson watches those arguments of a command that are the names of files. -/
def filesWatched (exists_ : Text → Bool) : List Text := filesNamed.filter exists_

end Verif.Build
