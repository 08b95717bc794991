import Verif.Args.ModelReport
import Verif.Args.ModelHelp
/-! # Model of flags and commands bound to their report targets

`Flag::with` and `Command::with` (`lib/osi/src/args/layout.rs` 208-220 and 340-352) bind each flag and each command
to a report object. The parser calls that object (parse.rs 84-160). Here the objects are the ones that
`lib/osi/src/args/report.rs` and `help.rs` provide, each at some location. Two flags have the same location if they
use the same cell through `Shared` or the same `Help`. -/
namespace Verif.Args

/-- The implementations of `FlagReport`: report.rs 194-478 and help.rs 236-258. `str` stands for `&str` and
`String` alike. -/
inductive Kind
  | optUnit | bool | osStr | optOsStr | str | optStr | vecOsStr | optVecOsStr | vecStr | optVecStr | help
deriving DecidableEq, Repr

/-- The type of such a target. -/
abbrev Kind.T : Kind → Type
  | .optUnit => Option Unit
  | .bool => Bool
  | .osStr | .str => Bytes
  | .optOsStr | .optStr => Option Bytes
  | .vecOsStr | .vecStr => List Bytes
  | .optVecOsStr | .optVecStr => Option (List Bytes)
  | .help => Help

/-- `FlagReport for Flag`, help.rs 236-258, with `at_` for the context's `command_current`. -/
def help_apply {ε R : Type} (err : Err ε R) (at_ : Nat) : Report → Help → ε → (Help × ε) × Option R
  | .set _, t, e => store (Help_report t at_ true) e
  | .toggle _ value, t, e => store (Help_report t at_ value) e
  | .parse arg value, t, e => default_parse err arg value t e

/-- A report to a target of the given kind. -/
def Kind.report {ε R : Type} (err : Err ε R) (at_ : Nat) (r : Report) : (k : Kind) → k.T → ε → (k.T × ε) × Option R
  | .optUnit => Verif.Args.optUnit.apply err r
  | .bool => Verif.Args.bool.apply err r
  | .osStr => Verif.Args.osStr.apply err r
  | .optOsStr => Verif.Args.optOsStr.apply err r
  | .str => Verif.Args.str.apply err r
  | .optStr => Verif.Args.optStr.apply err r
  | .vecOsStr => Verif.Args.vecOsStr.apply err r
  | .optVecOsStr => Verif.Args.optVecOsStr.apply err r
  | .vecStr => Verif.Args.vecStr.apply err r
  | .optVecStr => Verif.Args.optVecStr.apply err r
  | .help => help_apply err at_ r

/-- The implementations of `CommandReport`, report.rs 480-632. -/
inductive CKind
  | unit | vecOsStr | optVecOsStr | vecStr | optVecStr
deriving DecidableEq, Repr

/-- The type of such a target. -/
abbrev CKind.T : CKind → Type
  | .unit => Unit
  | .vecOsStr | .vecStr => List Bytes
  | .optVecOsStr | .optVecStr => Option (List Bytes)

/-- A report to a target of the given kind. -/
def CKind.report {ε R : Type} (err : Err ε R) (o : Option Bytes) : (k : CKind) → k.T → ε → (k.T × ε) × Option R
  | .unit => cmdUnit.report_parameter err o
  | .vecOsStr => cmdVecOsStr.report_parameter err o
  | .optVecOsStr => cmdOptVecOsStr.report_parameter err o
  | .vecStr => cmdVecStr.report_parameter err o
  | .optVecStr => cmdOptVecStr.report_parameter err o

/-- Which targets the flags and commands are bound to. A flag is identified by the path of its command and its
name, a command by its path; with equal paths or names in a schema it is unspecified which one the parser finds. -/
structure Binding where
  Loc : Type
  dec : DecidableEq Loc
  /-- the target at a location -/
  kind : Loc → Kind
  /-- whether it is reached through `Shared<Cell<_>>` -/
  cell : Loc → Bool
  /-- the location of a flag -/
  loc : Path → Bytes → Loc
  /-- the target of a command -/
  ckind : Path → CKind

/-- The content of all targets and of the parser report. -/
structure Targets (B : Binding) (ε : Type) where
  flags : ∀ l, (B.kind l).T
  params : ∀ p, (B.ckind p).T
  err : ε

/-- Change one entry. -/
def put {ι : Type} [DecidableEq ι] {F : ι → Type} (f : ∀ i, F i) (i : ι) (x : F i) : ∀ j, F j :=
  fun j => if h : j = i then h ▸ x else f j

variable {ε R : Type}

/-- The report object of a flag is called: `flag.report.report_*`, parse.rs 108-160. -/
def toFlag (B : Binding) (err : Err ε R) (p : Path) (name : Bytes) (at_ : Nat) (r : Report) (s : Targets B ε) :
    Targets B ε × Option R :=
  let l := B.loc p name
  let op := (B.kind l).report err at_ r
  let ((t, e), o) := if B.cell l then cellOp op (s.flags l) s.err else op (s.flags l) s.err
  letI := B.dec
  ({ s with flags := put s.flags l t, err := e }, o)

/-- The report object of a command is called: `report_parameter_for`, parse.rs 84-91. -/
def toCommand (B : Binding) (err : Err ε R) (p : Path) (o : Option Bytes) (s : Targets B ε) :
    Targets B ε × Option R :=
  let ((t, e), stop) := (B.ckind p).report err o (s.params p) s.err
  ({ s with params := put s.params p t, err := e }, stop)

/-- All report objects as one handler for the commands `S` of a compiled schema. The parser makes no report with
an index out of range (`parse_refines`), so what happens then does not matter. -/
def bound (B : Binding) (err : Err ε R) (S : List Command) (s : Targets B ε) : Event → Targets B ε × Option R
  | .error x => ({ s with err := (err s.err x).1 }, (err s.err x).2)
  | .parameter c o =>
    match S[c]? with
    | some cm => toCommand B err cm.path o s
    | none => (s, none)
  | .set c f at_ arg =>
    match S[c]?, S[c]?.bind (·.flags[f]?) with
    | some cm, some fl => toFlag B err cm.path fl.name at_ (.set arg) s
    | _, _ => (s, none)
  | .toggle c f at_ arg value =>
    match S[c]?, S[c]?.bind (·.flags[f]?) with
    | some cm, some fl => toFlag B err cm.path fl.name at_ (.toggle arg value) s
    | _, _ => (s, none)
  | .parse c f at_ arg value =>
    match S[c]?, S[c]?.bind (·.flags[f]?) with
    | some cm, some fl => toFlag B err cm.path fl.name at_ (.parse arg value) s
    | _, _ => (s, none)

end Verif.Args
