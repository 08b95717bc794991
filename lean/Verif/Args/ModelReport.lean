import Verif.Args.Model
/-! # Model of the report targets, `lib/osi/src/args/report.rs`

The parser report that receives errors is the caller's: a state `ε` and a function `err`, which may ask to stop
by returning some `R` (`ControlFlow::Break`). `OsStr`, `str` and `String` values are byte strings; `to_str` is
the UTF-8 check. -/
namespace Verif.Args

/-- The caller's `ParserReport::report_error`, report.rs 92-99. -/
abbrev Err (ε R : Type) := ε → Error → ε × Option R

/-- `FlagReport` for a target of type `T`, report.rs 31-68. The second argument is the context's `flag_arg`. -/
structure FlagReport (ε R T : Type) where
  report_set : Err ε R → Bytes → T → ε → (T × ε) × Option R
  report_toggle : Err ε R → Bytes → Bool → T → ε → (T × ε) × Option R
  report_parse : Err ε R → Bytes → Bytes → T → ε → (T × ε) × Option R

/-- `CommandReport` for a target of type `T`, report.rs 72-87. -/
structure CommandReport (ε R T : Type) where
  report_parameter : Err ε R → Option Bytes → T → ε → (T × ε) × Option R

variable {ε R T : Type}

/-- `FlagContext::report_error` and `CommandContext::report_error`, report.rs 146-151 and 169-174: the target is
left as it is. -/
def report_error (err : Err ε R) (x : Error) (t : T) (e : ε) : (T × ε) × Option R := ((t, (err e x).1), (err e x).2)

/-- Continue with a new target value. -/
def store (t : T) (e : ε) : (T × ε) × Option R := ((t, e), none)

/-- Default `report_set`, report.rs 33-40. -/
def default_set (err : Err ε R) (arg : Bytes) (t : T) (e : ε) : (T × ε) × Option R :=
  report_error err (.flagNoValue arg) t e

/-- Default `report_toggle`, report.rs 43-55, for the default `report_set` (no implementation overrides only
`report_set`). -/
def default_toggle (err : Err ε R) (arg : Bytes) (value : Bool) (t : T) (e : ε) : (T × ε) × Option R :=
  if value then default_set err arg t e else report_error err (.flagUnexpectedToggle arg) t e

/-- Default `report_parse`, report.rs 58-67. -/
def default_parse (err : Err ε R) (arg value : Bytes) (t : T) (e : ε) : (T × ε) × Option R :=
  report_error err (.flagUnexpectedValue arg value) t e

/-- `FlagReport for Option<()>`, report.rs 194-219. -/
def optUnit : FlagReport ε R (Option Unit) where
  report_set _ _ _ e := store (some ()) e
  report_toggle _ _ value _ e := store (if value then some () else none) e
  report_parse := default_parse

/-- `FlagReport for bool`, report.rs 221-242. -/
def bool : FlagReport ε R Bool where
  report_set _ _ _ e := store true e
  report_toggle _ _ value _ e := store value e
  report_parse := default_parse

/-- `FlagReport for &OsStr`, report.rs 244-257. -/
def osStr : FlagReport ε R Bytes where
  report_set := default_set
  report_toggle := default_toggle
  report_parse _ _ value _ e := store value e

/-- `FlagReport for Option<&OsStr>`, report.rs 259-272. -/
def optOsStr : FlagReport ε R (Option Bytes) where
  report_set := default_set
  report_toggle := default_toggle
  report_parse _ _ value _ e := store (some value) e

/-- `FlagReport for &str` and `for String`, report.rs 274-294 and 318-338. -/
def str : FlagReport ε R Bytes where
  report_set := default_set
  report_toggle := default_toggle
  report_parse err arg value t e :=
    if isUtf8 value then store value e else report_error err (.flagValueNotUtf8 arg value) t e

/-- `FlagReport for Option<&str>` and `for Option<String>`, report.rs 296-316 and 340-360. -/
def optStr : FlagReport ε R (Option Bytes) where
  report_set := default_set
  report_toggle := default_toggle
  report_parse err arg value t e :=
    if isUtf8 value then store (some value) e else report_error err (.flagValueNotUtf8 arg value) t e

/-- `FlagReport for Vec<&OsStr>`, report.rs 362-375. -/
def vecOsStr : FlagReport ε R (List Bytes) where
  report_set := default_set
  report_toggle := default_toggle
  report_parse _ _ value t e := store (t ++ [value]) e

/-- `FlagReport for Option<Vec<&OsStr>>`, report.rs 377-390. -/
def optVecOsStr : FlagReport ε R (Option (List Bytes)) where
  report_set := default_set
  report_toggle := default_toggle
  report_parse _ _ value t e := store (some (t.getD [] ++ [value])) e

/-- `FlagReport for Vec<&str>` and `for Vec<String>`, report.rs 392-412 and 436-456. -/
def vecStr : FlagReport ε R (List Bytes) where
  report_set := default_set
  report_toggle := default_toggle
  report_parse err arg value t e :=
    if isUtf8 value then store (t ++ [value]) e else report_error err (.flagValueNotUtf8 arg value) t e

/-- `FlagReport for Option<Vec<&str>>` and `for Option<Vec<String>>`, report.rs 414-434 and 458-478. -/
def optVecStr : FlagReport ε R (Option (List Bytes)) where
  report_set := default_set
  report_toggle := default_toggle
  report_parse err arg value t e :=
    if isUtf8 value then store (some (t.getD [] ++ [value])) e
    else report_error err (.flagValueNotUtf8 arg value) t e

/-- Run an operation on a copy and store the copy only if it continued. -/
def cellOp (op : T → ε → (T × ε) × Option R) (t : T) (e : ε) : (T × ε) × Option R :=
  match op t e with
  | ((_, e'), some r) => ((t, e'), some r)
  | ((t', e'), none) => ((t', e'), none)

/-- `FlagReport for Shared<Cell<Inner>>`, report.rs 649-687. The target is the content of the cell. -/
def sharedCell (inner : FlagReport ε R T) : FlagReport ε R T where
  report_set err arg := cellOp (inner.report_set err arg)
  report_toggle err arg value := cellOp (inner.report_toggle err arg value)
  report_parse err arg value := cellOp (inner.report_parse err arg value)

/-- `FlagReport for Shared<RefCell<Inner>>`, report.rs 689-718. The target is the content of the cell, which is
assumed not to be borrowed by the caller during parsing (`borrow_mut` would panic); `ModelShared.lean` is without that. -/
def sharedRefCell (inner : FlagReport ε R T) : FlagReport ε R T := inner

/-- `CommandReport for ()` and the default, report.rs 72-87 and 480-498. -/
def cmdUnit : CommandReport ε R Unit where
  report_parameter err value t e :=
    match value with
    | some v => report_error err (.parameterUnexpected v) t e
    | none => store t e

/-- `CommandReport for Vec<&OsStr>`, report.rs 500-515. -/
def cmdVecOsStr : CommandReport ε R (List Bytes) where
  report_parameter _ value t e :=
    match value with
    | some v => store (t ++ [v]) e
    | none => store t e

/-- `CommandReport for Option<Vec<&OsStr>>`, report.rs 517-532. -/
def cmdOptVecOsStr : CommandReport ε R (Option (List Bytes)) where
  report_parameter _ value t e :=
    match value with
    | some v => store (some (t.getD [] ++ [v])) e
    | none => store t e

/-- `CommandReport for Vec<&str>` and `for Vec<String>`, report.rs 534-557 and 584-607. -/
def cmdVecStr : CommandReport ε R (List Bytes) where
  report_parameter err value t e :=
    match value with
    | some v => if isUtf8 v then store (t ++ [v]) e else report_error err (.parameterNotUtf8 v) t e
    | none => store t e

/-- `CommandReport for Option<Vec<&str>>` and `for Option<Vec<String>>`, report.rs 559-582 and 609-632. -/
def cmdOptVecStr : CommandReport ε R (Option (List Bytes)) where
  report_parameter err value t e :=
    match value with
    | some v => if isUtf8 v then store (some (t.getD [] ++ [v])) e else report_error err (.parameterNotUtf8 v) t e
    | none => store t e

/-- `ParserReport for Vec<Error>`, report.rs 634-647. -/
def vecError : Err (List Error) Unit := fun l x => (l ++ [x], none)

/-- A report to a flag, with the spelling of the flag. -/
inductive Report
  | set (arg : Bytes)
  | toggle (arg : Bytes) (value : Bool)
  | parse (arg value : Bytes)
deriving DecidableEq, Repr

/-- Make one report. -/
def FlagReport.apply (fr : FlagReport ε R T) (err : Err ε R) : Report → T → ε → (T × ε) × Option R
  | .set arg => fr.report_set err arg
  | .toggle arg value => fr.report_toggle err arg value
  | .parse arg value => fr.report_parse err arg value

/-- Make reports in order until one asks to stop. -/
def feed {A : Type} (step : A → T → ε → (T × ε) × Option R) : List A → T → ε → (T × ε) × Option R
  | [], t, e => ((t, e), none)
  | a :: l, t, e =>
    match step a t e with
    | (te, some r) => (te, some r)
    | (te, none) => feed step l te.1 te.2

end Verif.Args
