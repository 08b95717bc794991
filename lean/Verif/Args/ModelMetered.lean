import Verif.Args.ModelLookup
/-! # Parsing, with the number of comparisons

The parser of `Model`, with the lookups of `ModelLookup`. Each function also returns how often paths of commands and names of flags
were compared with what was looked for. -/
namespace Verif.Args

section
variable {σ R : Type} (h : σ → Event → σ × Option R)

/-- `?`: what comes after it is not done, nor counted, if a report asked to stop. -/
def Out.bindM {α β : Type} (x : Out σ R α) (f : σ → α → Out σ R β × Nat) : Out σ R β × Nat :=
  match x with
  | .cont s a => f s a
  | .brk s r => (.brk s r, 0)
  | .panic => (.panic, 0)

/-- Add to the number of comparisons. -/
def charge {α : Type} (n : Nat) (x : α × Nat) : α × Nat := (x.1, n + x.2)

/-- `Parser::parse_long`, parse.rs 285-366. -/
def parse_longM (sc : Schema) (cur : Cursor) (args : List Bytes) (s : σ) (flag : Bytes) (value : Option Bytes) :
    Out σ R (List Bytes) × Nat :=
  let found := resolve_flagM sc cur flag
  (orPanic found.1 fun
  | none => (emit h s (.error (.flagUnknown flag))).bind fun s _ => .cont s args
  | some ((c, f), toggled) =>
    orPanic (do let cm ← sc.cmds[c]?; cm.flags[f]?) fun fl =>
    match fl.mode, toggled, value with
    | .set, true, _ | .parse, true, _ =>
      (emit h s (.error (.flagUnexpectedToggle flag))).bind fun s _ => .cont s args
    | .set, false, some v =>
      (emit h s (.error (.flagUnexpectedValue flag v))).bind fun s _ => .cont s args
    | .toggle, _, some v =>
      (emit h s (.error (.flagUnexpectedValue flag v))).bind fun s _ => .cont s args
    | .set, false, none =>
      orPanic (contextAt sc cur c) fun a =>
        (emit h s (.set c f a flag)).bind fun s _ => .cont s args
    | .toggle, t, none =>
      orPanic (contextAt sc cur c) fun a =>
        (emit h s (.toggle c f a flag (!t))).bind fun s _ => .cont s args
    | .parse, false, none =>
      match args with
      | [] => (emit h s (.error (.flagNoValue flag))).bind fun s _ => .cont s []
      | v :: args =>
        orPanic (contextAt sc cur c) fun a =>
          (emit h s (.parse c f a flag v)).bind fun s _ => .cont s args
    | .parse, false, some v =>
      orPanic (contextAt sc cur c) fun a =>
        (emit h s (.parse c f a flag v)).bind fun s _ => .cont s args, found.2)

/-- `Parser::parse_command`, parse.rs 368-388. -/
def parse_commandM (sc : Schema) (p : Parser) (s : σ) (arg : Bytes) (arg_str : Option Bytes) : Out σ R Parser × Nat :=
  let found := match arg_str with
    | none => (some none, 0)
    | some v => enterM sc p.cursor v
  (orPanic found.1 fun
  | some cur => .cont s { p with cursor := cur }
  | none =>
    (report_parameter h sc p.cursor s (some arg)).bind fun s _ => .cont s { p with commands_finalized := true }, found.2)

/-- `Parser::parse_cursor`, parse.rs 390-508. -/
def parse_cursorM (sc : Schema) : Nat → Parser → List Bytes → σ → Out σ R Parser × Nat
  | 0, _, _, _ => (.panic, 0)
  | _ + 1, p, [], s => ((report_parameter h sc p.cursor s none).bind fun s _ => .cont s p, 0)
  | fuel + 1, p, arg :: args, s =>
    if p.commands_finalized && p.flags_finalized then
      (report_parameter h sc p.cursor s (some arg)).bindM fun s _ => parse_cursorM sc fuel p args s
    else
      match (if p.flags_finalized then none else split_flag arg) with
      | some (_, true, _) =>
        (emit h s (.error (.flagUnknown arg))).bindM fun s _ => parse_cursorM sc fuel p args s
      | some ([], false, none) =>
        parse_cursorM sc fuel { p with commands_finalized := true, flags_finalized := true } args s
      | some (flag, false, value) =>
        let x := parse_longM h sc p.cursor args s flag value
        charge x.2 (x.1.bindM fun s args => parse_cursorM sc fuel p args s)
      | none =>
        if !p.flags_finalized && (2 ≤ arg.length && arg.head? == some 0x2d) then
          -- `parse_short`, parse.rs 272-283
          (emit h s (.error (.shortsUnknown arg))).bindM fun s _ => parse_cursorM sc fuel p args s
        else if !p.commands_finalized then
          let x := parse_commandM h sc p s arg (if isUtf8 arg then some arg else none)
          charge x.2 (x.1.bindM fun s p => parse_cursorM sc fuel p args s)
        else
          (report_parameter h sc p.cursor s (some arg)).bindM fun s _ => parse_cursorM sc fuel p args s

/-- `parse`, parse.rs 511-527. -/
def parseM (sc : Schema) (args : List Bytes) (s : σ) : Result σ R × Nat :=
  let x := parse_cursorM h sc (args.length + 1) ⟨false, false, Cursor_with sc⟩ args s
  (match x.1 with
    | .panic => .panic
    | .brk s r => .stopped s r
    | .cont s p =>
      match command sc p.cursor with
      | none => .panic
      | some none => .noCommand s
      | some (some i) => .ok s i, x.2)

end
end Verif.Args
