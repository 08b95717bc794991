import Verif.Args.Model
/-! # Model of the help output, `lib/osi/src/args/help.rs`

The caller's writer is a state `σ` and a function from calls to new states that may fail with some `E`. -/
namespace Verif.Args

/-- `flag.name.chars().count()`: the bytes that do not continue a character (RFC 3629; Rust's own
implementation of `Chars::count`). -/
def charCount (s : Bytes) : Nat := (s.filter fun c => c &&& 0xc0 ≠ 0x80).length

/-- A call of the `Write` trait, help.rs 24-70. -/
inductive Call
  | info (info : Bytes)
  | section_ (name : String)
  | usage (entry : Bytes) (path : Path)
  | flag (name : Bytes) (mode : FlagMode) (info : Option Bytes) (width : Nat)
  | command (name : Bytes) (info : Option Bytes) (width : Nat)
deriving DecidableEq, Repr

variable {σ E : Type}

/-- One call; `?` returns on failure. -/
def call (w : σ → Call → σ × Option E) (c : Call) (k : σ → σ × Option E) (s : σ) : σ × Option E :=
  match w s c with
  | (s, some e) => (s, some e)
  | (s, none) => k s

/-- Calls in a loop. -/
def callAll (w : σ → Call → σ × Option E) : List Call → (σ → σ × Option E) → σ → σ × Option E
  | [], k => k
  | c :: cs, k => call w c (callAll w cs k)

/-- The loop computing `o_width`, help.rs 143-148 and 180-185. -/
def widthOf (names : List Bytes) : Option Nat :=
  names.foldl (fun o n => some (max (o.getD 0) (charCount n))) none

/-- The commands listed, help.rs 168-178: from the next one on, as long as paths properly extend `path`, those
exactly one longer. `v.path[..path.len()]` is evaluated only if the path is longer. -/
def listed (after : List Command) (path : Path) : List Command :=
  (after.takeWhile fun v => decide (v.path.length > path.length) && (v.path.take path.length == path)).filter
    fun v => v.path.length == path.length + 1

/-- `Help`, help.rs 82-86. -/
structure Help where
  entry : Bytes
  info : Bytes
  index : Option Nat
deriving DecidableEq, Repr

/-- `Help::with`, help.rs 101-110. -/
def Help_with (entry info : Bytes) : Help := ⟨entry, info, none⟩

/-- `Help::write`, help.rs 123-201. `none` is a panic (index out of range in `command_at` or `iter_from`). -/
def Help_write (h : Help) (w : σ → Call → σ × Option E) (S : List Command) (idx : Nat) (s : σ) :
    Option (σ × Option E) :=
  match S[idx]? with
  | none => none
  | some command =>
    let path := command.path
    if S.length < idx + 1 then none else
    let cmds := listed (S.drop (idx + 1)) path
    let name (c : Command) : Bytes := c.path.getD path.length []
    let done := fun s => (s, none)
    let commandSection := match widthOf (cmds.map name) with
      | none => done
      | some width => call w (.section_ "Commands") (callAll w (cmds.map fun c => .command (name c) c.help_short width) done)
    let flagSection := match widthOf (command.flags.map (·.name)) with
      | none => commandSection
      | some width => call w (.section_ "Flags")
          (callAll w (command.flags.map fun f => .flag f.name f.mode f.help_short width) commandSection)
    some (call w (.info h.info) (call w (.section_ "Usage") (call w (.usage h.entry path) flagSection)) s)

/-- The result of `help`: a panic, or `Ok(bool)` / `Err(E)`. -/
inductive HelpResult (σ E : Type)
  | panic
  | ok (s : σ) (written : Bool)
  | err (s : σ) (e : E)
deriving DecidableEq, Repr

/-- `Help::help` and `Help::try_help`, help.rs 204-233 (the same code). -/
def Help_help (h : Help) (w : σ → Call → σ × Option E) (S : List Command) (s : σ) : HelpResult σ E :=
  match h.index with
  | none => .ok s false
  | some idx =>
    match Help_write h w S idx s with
    | none => .panic
    | some (s, none) => .ok s true
    | some (s, some e) => .err s e

/-- `Flag::report_set` and `report_toggle`, help.rs 236-257; `at_` is the context's `command_current`.
`report_parse` is the default and leaves the flag alone. -/
def Help_report (h : Help) (at_ : Nat) (value : Bool) : Help := { h with index := if value then some at_ else none }

end Verif.Args
