import Verif.Args.ModelBind
import Verif.Args.PropsReport
import Verif.Args.Spec
/-! # Specification of a command line and of what the targets hold after it -/
namespace Verif.Args

/-! ## What targets hold -/

/-- What a help flag remembers of a report: the command it was used on, or that it was negated. -/
def helpRequest : Nat × Report → Option (Option Nat)
  | (at_, .set _) => some (some at_)
  | (at_, .toggle _ true) => some (some at_)
  | (_, .toggle _ false) => some none
  | (_, .parse _ _) => none

/-- The documented content of a target that held `t`, after the given reports. -/
def Kind.value : (k : Kind) → k.T → List (Nat × Report) → k.T
  | .optUnit, t, l => ((toggles (l.map (·.2))).getLast?.map fun b => if b then some () else none).getD t
  | .bool, t, l => (toggles (l.map (·.2))).getLast?.getD t
  | .osStr, t, l => (values (fun _ => true) (l.map (·.2))).getLast?.getD t
  | .optOsStr, t, l => ((values (fun _ => true) (l.map (·.2))).getLast?.map some).getD t
  | .str, t, l => (values isUtf8 (l.map (·.2))).getLast?.getD t
  | .optStr, t, l => ((values isUtf8 (l.map (·.2))).getLast?.map some).getD t
  | .vecOsStr, t, l => t ++ values (fun _ => true) (l.map (·.2))
  | .optVecOsStr, t, l => optAppend t (values (fun _ => true) (l.map (·.2)))
  | .vecStr, t, l => t ++ values isUtf8 (l.map (·.2))
  | .optVecStr, t, l => optAppend t (values isUtf8 (l.map (·.2)))
  | .help, t, l => { t with index := (l.filterMap helpRequest).getLast?.getD t.index }

/-- The error that a report to such a target is. -/
def Kind.error (k : Kind) (r : Report) : List Error :=
  match k with
  | .optUnit | .bool | .help => toggleErrors [r]
  | .osStr | .optOsStr | .vecOsStr | .optVecOsStr => valueErrors (fun _ => true) [r]
  | .str | .optStr | .vecStr | .optVecStr => valueErrors isUtf8 [r]

/-- The documented content of a target for parameters that held `t`, after the given parameters. -/
def CKind.value : (k : CKind) → k.T → List (Option Bytes) → k.T
  | .unit, _, _ => ()
  | .vecOsStr, t, l => t ++ params (fun _ => true) l
  | .optVecOsStr, t, l => optAppend t (params (fun _ => true) l)
  | .vecStr, t, l => t ++ params isUtf8 l
  | .optVecStr, t, l => optAppend t (params isUtf8 l)

/-- The error that a parameter of such a target is. -/
def CKind.error (k : CKind) (o : Option Bytes) : List Error :=
  match k, o with
  | .unit, some p => [.parameterUnexpected p]
  | .unit, none => []
  | .vecOsStr, o | .optVecOsStr, o => paramErrors (fun _ => true) [o]
  | .vecStr, o | .optVecStr, o => paramErrors isUtf8 [o]

/-! ## To whom a report goes -/

/-- A report and its addressee. -/
inductive Letter
  | error (x : Error)
  | param (p : Path) (o : Option Bytes)
  | flag (p : Path) (name : Bytes) (at_ : Nat) (r : Report)
deriving DecidableEq, Repr

/-- A report to flag `f` of command `c`. -/
def flagLetter (S : List Command) (c f at_ : Nat) (r : Report) : Option Letter :=
  match S[c]?, S[c]?.bind (·.flags[f]?) with
  | some cm, some fl => some (.flag cm.path fl.name at_ r)
  | _, _ => none

/-- The addressee by path and name instead of index. -/
def letter (S : List Command) : Event → Option Letter
  | .error x => some (.error x)
  | .parameter c o => S[c]?.map fun cm => .param cm.path o
  | .set c f at_ arg => flagLetter S c f at_ (.set arg)
  | .toggle c f at_ arg v => flagLetter S c f at_ (.toggle arg v)
  | .parse c f at_ arg v => flagLetter S c f at_ (.parse arg v)

/-- The reports to the target at location `l`. -/
def toLoc (B : Binding) (l : B.Loc) (ls : List Letter) : List (Nat × Report) :=
  letI := B.dec
  ls.filterMap fun
    | .flag p name at_ r => if B.loc p name = l then some (at_, r) else none
    | _ => none

/-- The parameters of the command with path `p`. -/
def toPath (p : Path) (ls : List Letter) : List (Option Bytes) :=
  ls.filterMap fun
    | .param q o => if q = p then some o else none
    | _ => none

/-- The errors, in order. -/
def letterErrors (B : Binding) (ls : List Letter) : List Error :=
  ls.flatMap fun
    | .error x => [x]
    | .param p o => (B.ckind p).error o
    | .flag p name _ r => (B.kind (B.loc p name)).error r

/-! ## Command lines -/

/-- What is said about a flag. -/
inductive Word
  /-- `--name` -/
  | on
  /-- `--no-name` -/
  | off
  /-- `--name=value` -/
  | inline (value : Bytes)
  /-- `--name value` -/
  | next (value : Bytes)
deriving DecidableEq, Repr

/-- Something said about the flag `flag` of the command with path `owner`. -/
structure Setting where
  owner : Path
  flag : Flag
  word : Word
deriving DecidableEq, Repr

/-- How a setting is written. -/
def Setting.args (st : Setting) : List Bytes :=
  match st.word with
  | .on => [dashes ++ st.flag.name]
  | .off => [dashes ++ noDash ++ st.flag.name]
  | .inline v => [dashes ++ st.flag.name ++ 0x3d :: v]
  | .next v => [dashes ++ st.flag.name, v]

/-- The report that a setting is to make. -/
def Setting.report (st : Setting) : Report :=
  match st.word with
  | .on => if st.flag.mode = .set then .set st.flag.name else .toggle st.flag.name true
  | .off => .toggle (noDash ++ st.flag.name) false
  | .inline v | .next v => .parse st.flag.name v

/-- The flag can be used that way with the command `P`: it belongs to `P` or a command above, no command in between
has a flag of that name, its name can be written, it can be set, toggled or given a value as its mode says, and
for `--no-name` there is no flag that is really called `no-name`. -/
structure Usable (cs : List Command) (P : Path) (st : Setting) : Prop where
  registered : ∃ c ∈ cs, c.path = st.owner ∧ st.flag ∈ c.flags
  above : st.owner <+: P
  closest : ∀ d ∈ cs, d.path <+: P → hasFlag st.flag.name d = true → d.path.length ≤ st.owner.length
  utf8 : isUtf8 st.flag.name = true
  noEq : (0x3d : UInt8) ∉ st.flag.name
  nonempty : st.flag.name ≠ []
  mode : match st.word with
    | .on => st.flag.mode = .set ∨ st.flag.mode = .toggle
    | .off => st.flag.mode = .toggle ∧ ∀ d ∈ cs, d.path <+: P → hasFlag (noDash ++ st.flag.name) d = false
    | .inline _ | .next _ => st.flag.mode = .parse

/-- A command line: the words of the command, settings, `--`, parameters. -/
def commandLine (P : Path) (settings : List Setting) (params : List Bytes) : List Bytes :=
  P ++ settings.flatMap Setting.args ++ dashes :: params

/-- The reports that it is to make, where `i` is the index of the command. -/
def lineLetters (i : Nat) (P : Path) (settings : List Setting) (params : List Bytes) : List Letter :=
  settings.map (fun st => .flag st.owner st.flag.name i st.report) ++
    params.map (fun p => .param P (some p)) ++ [.param P none]

end Verif.Args
