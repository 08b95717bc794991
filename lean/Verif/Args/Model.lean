import Verif.Args.Utf8
/-! # Model of `lib/osi/src/args/layout.rs` and `lib/osi/src/args/parse.rs`

A `str` is its bytes (`str: Ord` is bytewise), an `OsStr` its encoded bytes. The report objects of the
caller are one handler `σ → Event → σ × Option R`: it receives every report with the index of the command
and flag it is made to, has arbitrary state, and may ask to stop (`ControlFlow::Break`). -/
namespace Verif.Args

abbrev Path := List Bytes

/-- Order of `str`. -/
def cmpStr : Bytes → Bytes → Ordering := List.compareLex compare

/-- Order of `[&str]`. -/
def cmpPath : Path → Path → Ordering := List.compareLex cmpStr

/-- `FlagMode`, layout.rs 112-122. -/
inductive FlagMode | set | toggle | parse
deriving DecidableEq, Repr

/-- `Flag`, layout.rs 127-132 (the report is in the handler). -/
structure Flag where
  name : Bytes
  mode : FlagMode
  help_short : Option Bytes := none
deriving DecidableEq, Repr

/-- `Command`, layout.rs 158-163. -/
structure Command where
  path : Path
  flags : List Flag
  help_short : Option Bytes := none
deriving DecidableEq, Repr

/-- `slice::sort_unstable_by`. The order of equal elements is unspecified, so any such function is allowed. -/
structure Sorter where
  run : {α : Type} → (α → α → Ordering) → List α → List α
  perm : ∀ {α : Type} (cmp : α → α → Ordering) (l : List α), (run cmp l).Perm l
  sorted : ∀ {α : Type} (cmp : α → α → Ordering) [Std.TransCmp cmp] (l : List α),
    (run cmp l).Pairwise (fun a b => cmp a b ≠ .gt)

/-- `f` says `Less` on a front part of `l`, `Equal` on a middle part and `Greater` on the rest. -/
def Partitioned {α : Type} (f : α → Ordering) (l : List α) : Prop :=
  l.Pairwise (fun a b => (f b = .lt → f a = .lt) ∧ (f a = .gt → f b = .gt))

/-- `slice::binary_search_by(..).ok()`. Which of several matches is found is unspecified. -/
structure Searcher where
  run : {α : Type} → (α → Ordering) → List α → Option Nat
  found : ∀ {α : Type} (f : α → Ordering) (l : List α) (i : Nat), Partitioned f l → run f l = some i →
    ∃ a, l[i]? = some a ∧ f a = .eq
  missing : ∀ {α : Type} (f : α → Ordering) (l : List α), Partitioned f l → run f l = none →
    ∀ a ∈ l, f a ≠ .eq

/-- `Schema`/`CommandSet`, layout.rs 168-170, 191-193, 201-204: commands with their `up` links. -/
structure Schema where
  cmds : List Command
  ups : List (Option Nat)

/-- `FlagSet::compile`, layout.rs 252-258. -/
def FlagSet_compile (so : Sorter) (fs : List Flag) : List Flag :=
  so.run (fun a b => cmpStr a.name b.name) fs

/-- The `while let` of layout.rs 433-439: follow the `up` links from `o_up` until a path is a prefix of
`path`. `fuel` bounds the iterations; the theorems show that it never runs out. -/
def walkUp (paths : List Path) (ups : List (Option Nat)) (path : Path) : Nat → Option Nat → Option Nat
  | 0, _ => none
  | _, none => none
  | f + 1, some up =>
    match paths[up]? with
    | none => none
    | some p => if p.isPrefixOf path then some up else walkUp paths ups path f (ups[up]?.getD none)

/-- The `for` of layout.rs 425-440, for the remaining paths `rest` starting at index `ups.length`. -/
def compileUps (paths : List Path) : (rest : List Path) → (ups : List (Option Nat)) → List (Option Nat)
  | [], ups => ups
  | p :: rest, ups =>
    let start := match ups.length with
      | 0 => none
      | i + 1 => some i
    compileUps paths rest (ups ++ [walkUp paths ups p (ups.length + 1) start])

/-- `CommandSet::compile`/`with`, layout.rs 411-452, with every command's flag set compiled too. -/
def compile (so : Sorter) (cs : List Command) : Schema :=
  let cmds := so.run (fun a b => cmpPath a.path b.path)
    (cs.map fun c => { c with flags := FlagSet_compile so c.flags })
  { cmds, ups := compileUps (cmds.map (·.path)) (cmds.map (·.path)) [] }

/-- `Error`, args.rs 28-81 (the variants raised by the parser). -/
inductive Error
  | shortsUnknown (shorts : Bytes)
  | flagUnknown (flag : Bytes)
  | flagUnexpectedToggle (flag : Bytes)
  | flagUnexpectedValue (flag value : Bytes)
  | flagNoValue (flag : Bytes)
  | flagValueNotUtf8 (flag value : Bytes)
  | parameterUnexpected (parameter : Bytes)
  | parameterNotUtf8 (parameter : Bytes)
deriving DecidableEq, Repr

/-- A report made to the caller's objects: to the parser report, to the command report of `cmd`, or to the
flag report `(cmd, flag)` with context `at` and spelling `arg`. -/
inductive Event
  | error (e : Error)
  | parameter (cmd : Nat) (o : Option Bytes)
  | set (cmd flag at_ : Nat) (arg : Bytes)
  | toggle (cmd flag at_ : Nat) (arg : Bytes) (value : Bool)
  | parse (cmd flag at_ : Nat) (arg value : Bytes)
deriving DecidableEq, Repr

/-- Outcome of a piece of code: panic, `ControlFlow::Break(r)`, or `Continue(a)`. -/
inductive Out (σ R α : Type)
  | panic
  | brk (s : σ) (r : R)
  | cont (s : σ) (a : α)
deriving DecidableEq, Repr

/-- The `?` operator. -/
def Out.bind {σ R α β : Type} (x : Out σ R α) (f : σ → α → Out σ R β) : Out σ R β :=
  match x with
  | .panic => .panic
  | .brk s r => .brk s r
  | .cont s a => f s a

/-- `CursorPosition`, parse.rs 9-13. -/
structure CursorPosition where
  index : Nat
  level : Nat
deriving DecidableEq, Repr

abbrev Cursor := Option CursorPosition

/-- `Cursor::with`, parse.rs 28-45. -/
def Cursor_with (sc : Schema) : Cursor :=
  if sc.cmds.isEmpty then none else some ⟨0, 0⟩

/-- `Cursor::key`, parse.rs 47-54. `none` is the panic of the slice or index operation. -/
def key (sc : Schema) : Cursor → Option Path
  | none => some []
  | some v => do
    let c ← sc.cmds[v.index]?
    if v.level ≤ c.path.length then some (c.path.take v.level) else none

/-- `Cursor::command`, parse.rs 56-64 (outer `none`: panic). -/
def command (sc : Schema) : Cursor → Option (Option Nat)
  | none => some none
  | some v => do
    let c ← sc.cmds[v.index]?
    some (if c.path.length ≤ v.level then some v.index else none)

/-- `CommandSetRef::up_from`, layout.rs 532-534. -/
def up_from (sc : Schema) (i : Nat) : Option (Option Nat) := sc.ups[i]?

/-- `Cursor::command_or_up`, parse.rs 66-74. -/
def command_or_up (sc : Schema) : Cursor → Option (Option Nat)
  | none => some none
  | some v => do
    let c ← sc.cmds[v.index]?
    if c.path.length ≤ v.level then some (some v.index) else up_from sc v.index

/-- `Cursor::compare_prefix`, parse.rs 161-194: the loop over the first `n` elements, then the tail. -/
def compare_prefix : (element prefix0 : Path) → (prefix1 : Bytes) → Ordering
  | e :: es, p :: ps, name =>
    match cmpStr e p with
    | .eq => compare_prefix es ps name
    | v => v
  | e :: _, [], name => cmpStr e name
  | [], ps, _ => compare 0 (ps.length + 1)

/-- The `while` of parse.rs 226-233. Outer `none`: index panic. -/
def backUp (sc : Schema) (k : Path) (name : Bytes) : Nat → Option Nat
  | 0 => some 0
  | cand + 1 => do
    let c ← sc.cmds[cand]?
    if compare_prefix c.path k name = .eq then backUp sc k name cand else some (cand + 1)

/-- `Cursor::enter`, parse.rs 196-240: `some none` is `false`, otherwise the new cursor. -/
def enter (se : Searcher) (sc : Schema) (cur : Cursor) (name : Bytes) : Option (Option Cursor) := do
  let k ← key sc cur
  match se.run (fun c => compare_prefix c.path k name) sc.cmds with
  | none => some none
  | some i => do
    let cand ← backUp sc k name i
    some (some (some ⟨cand, k.length + 1⟩))

/-- The loop of `Cursor::find_flag`, parse.rs 248-257, with an iteration bound (running out is `none`, as
is an index panic). -/
def findLoop (se : Searcher) (sc : Schema) (name : Bytes) : Nat → Option Nat → Option (Option (Nat × Nat))
  | _, none => some none
  | 0, some _ => none
  | f + 1, some idx => do
    let c ← sc.cmds[idx]?
    match se.run (fun fl : Flag => cmpStr fl.name name) c.flags with
    | some v => some (some (idx, v))
    | none => do
      let up ← up_from sc idx
      findLoop se sc name f up

/-- `Cursor::find_flag`, parse.rs 242-260. -/
def find_flag (se : Searcher) (sc : Schema) (cur : Cursor) (name : Bytes) : Option (Option (Nat × Nat)) :=
  findLoop se sc name (sc.cmds.length + 1) (cur.map (·.index))

/-- `Parser`, parse.rs 21-25, together with the cursor it works on. -/
structure Parser where
  commands_finalized : Bool
  flags_finalized : Bool
  cursor : Cursor

section
variable {σ R : Type} (h : σ → Event → σ × Option R)

/-- Calling a report. -/
def emit (s : σ) (e : Event) : Out σ R Unit :=
  match h s e with
  | (s', none) => .cont s' ()
  | (s', some r) => .brk s' r

/-- A panicking computation inside the parser. -/
def orPanic {α β : Type} (x : Option α) (f : α → Out σ R β) : Out σ R β :=
  match x with
  | none => .panic
  | some a => f a

/-- `Cursor::report_parameter`, parse.rs 93-106. -/
def report_parameter (sc : Schema) (cur : Cursor) (s : σ) (o : Option Bytes) : Out σ R Unit :=
  orPanic (command sc cur) fun
    | some v => emit h s (.parameter v o)
    | none =>
      match o with
      | some p => emit h s (.error (.parameterUnexpected p))
      | none => .cont s ()

/-- The context index of `report_{set,toggle,parse}_for`, parse.rs 113, 130, 148. -/
def contextAt (sc : Schema) (cur : Cursor) (idx : Nat) : Option Nat :=
  (command_or_up sc cur).map (·.getD idx)

/-- `str::strip_prefix`. -/
def stripPrefix : Bytes → Bytes → Option Bytes
  | [], l => some l
  | _ :: _, [] => none
  | p :: ps, a :: l => if p = a then stripPrefix ps l else none

/-- `"no-"`. -/
def sNo : Bytes := [0x6e, 0x6f, 0x2d]
/-- `"--"`. -/
def sDD : Bytes := [0x2d, 0x2d]

/-- The lookup with and without `no-`, parse.rs 292-310. -/
def resolve_flag (se : Searcher) (sc : Schema) (cur : Cursor) (flag : Bytes) :
    Option (Option ((Nat × Nat) × Bool)) := do
  let found ← find_flag se sc cur flag
  match found with
  | some v => some (some (v, false))
  | none =>
    match stripPrefix sNo flag with
    | none => some none
    | some stripped => (find_flag se sc cur stripped).map (·.map (·, true))

/-- `Parser::parse_long`, parse.rs 285-366. Returns the arguments left. -/
def parse_long (se : Searcher) (sc : Schema) (cur : Cursor) (args : List Bytes) (s : σ)
    (flag : Bytes) (value : Option Bytes) : Out σ R (List Bytes) :=
  orPanic (resolve_flag se sc cur flag) fun
  | none => (emit h s (.error (.flagUnknown flag))).bind fun s _ => .cont s args
  | some ((c, f), toggled) =>
    orPanic (do let cm ← sc.cmds[c]?; cm.flags[f]?) fun fl =>
    match fl.mode, toggled, value with
    | .set, true, _ | .parse, true, _ =>
      (emit h s (.error (.flagUnexpectedToggle flag))).bind fun s _ => .cont s args
    | .set, false, some v =>
      (emit h s (.error (.flagUnexpectedValue flag v))).bind fun s _ => .cont s args
    | .toggle, _, some v =>
      (emit h s (.error (.flagUnexpectedValue flag v))).bind fun s _ => .cont s args
    | .set, false, none =>
      orPanic (contextAt sc cur c) fun a =>
        (emit h s (.set c f a flag)).bind fun s _ => .cont s args
    | .toggle, t, none =>
      orPanic (contextAt sc cur c) fun a =>
        (emit h s (.toggle c f a flag (!t))).bind fun s _ => .cont s args
    | .parse, false, none =>
      match args with
      | [] => (emit h s (.error (.flagNoValue flag))).bind fun s _ => .cont s []
      | v :: args =>
        orPanic (contextAt sc cur c) fun a =>
          (emit h s (.parse c f a flag v)).bind fun s _ => .cont s args
    | .parse, false, some v =>
      orPanic (contextAt sc cur c) fun a =>
        (emit h s (.parse c f a flag v)).bind fun s _ => .cont s args

/-- `Parser::parse_command`, parse.rs 368-388. -/
def parse_command (se : Searcher) (sc : Schema) (p : Parser) (s : σ) (arg : Bytes) (arg_str : Option Bytes) :
    Out σ R Parser :=
  orPanic (match arg_str with
    | none => some none
    | some v => enter se sc p.cursor v) fun
  | some cur => .cont s { p with cursor := cur }
  | none =>
    (report_parameter h sc p.cursor s (some arg)).bind fun s _ => .cont s { p with commands_finalized := true }

/-- `str::split_once('=')`: text before and after the first `=`. -/
def splitEq : Bytes → Option (Bytes × Bytes)
  | [] => none
  | b :: l => if b = 0x3d then some ([], l) else (splitEq l).map fun (x, y) => (b :: x, y)

/-- The decoding of an argument that starts with `--`, parse.rs 425-446: flag name, whether the name has a
part that is not UTF-8, and inline value. -/
def split_flag (arg : Bytes) : Option (Bytes × Bool × Option Bytes) :=
  (stripPrefix sDD (arg.take (validUpTo arg))).map fun dd =>
    match splitEq dd with
    | none => (dd, !isUtf8 arg, none)
    | some (before, _) => (before, false, some (arg.drop (2 + before.length + 1)))

/-- `Parser::parse_cursor`, parse.rs 390-508. `fuel` bounds the iterations of `loop`; running out of it is
`panic`, which the theorems exclude. -/
def parse_cursor (se : Searcher) (sc : Schema) : Nat → Parser → List Bytes → σ → Out σ R Parser
  | 0, _, _, _ => .panic
  | _ + 1, p, [], s => (report_parameter h sc p.cursor s none).bind fun s _ => .cont s p
  | fuel + 1, p, arg :: args, s =>
    if p.commands_finalized && p.flags_finalized then
      (report_parameter h sc p.cursor s (some arg)).bind fun s _ => parse_cursor se sc fuel p args s
    else
      match (if p.flags_finalized then none else split_flag arg) with
      | some (_, true, _) =>
        (emit h s (.error (.flagUnknown arg))).bind fun s _ => parse_cursor se sc fuel p args s
      | some ([], false, none) =>
        parse_cursor se sc fuel { p with commands_finalized := true, flags_finalized := true } args s
      | some (flag, false, value) =>
        (parse_long h se sc p.cursor args s flag value).bind fun s args => parse_cursor se sc fuel p args s
      | none =>
        if !p.flags_finalized && (2 ≤ arg.length && arg.head? == some 0x2d) then
          -- `parse_short`, parse.rs 272-283
          (emit h s (.error (.shortsUnknown arg))).bind fun s _ => parse_cursor se sc fuel p args s
        else if !p.commands_finalized then
          (parse_command h se sc p s arg (if isUtf8 arg then some arg else none)).bind fun s p =>
            parse_cursor se sc fuel p args s
        else
          (report_parameter h sc p.cursor s (some arg)).bind fun s _ => parse_cursor se sc fuel p args s

/-- Result of `parse`: panic, or the final report state with `Ok(index)`, `Err(None)` or `Err(Some(r))`. -/
inductive Result (σ R : Type)
  | panic
  | ok (s : σ) (index : Nat)
  | noCommand (s : σ)
  | stopped (s : σ) (r : R)
deriving DecidableEq, Repr

/-- `parse`, parse.rs 511-527. -/
def parse (se : Searcher) (sc : Schema) (args : List Bytes) (s : σ) : Result σ R :=
  match parse_cursor h se sc (args.length + 1) ⟨false, false, Cursor_with sc⟩ args s with
  | .panic => .panic
  | .brk s r => .stopped s r
  | .cont s p =>
    match command sc p.cursor with
    | none => .panic
    | some none => .noCommand s
    | some (some i) => .ok s i

end
end Verif.Args
