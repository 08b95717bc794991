import Verif.Args.Model
/-! # Model: the argument parser as a conversation with its caller

`parse` gets its arguments from an iterator of the caller's and hands its reports to objects of the caller's
(`lib/osi/src/args/parse.rs` 511-527). Here both are calls into the caller's code, which share one state: an
iterator may behave differently after a report, it may go on for ever, and it may yield arguments again after
it returned `None`. The definitions of `Model.lean` that do not touch the iterator are used as they are. -/
namespace Verif.Args

/-- The caller's side: `Iterator::next` of `arguments`, and the reports (`ParserReport`, report.rs). -/
structure Caller (σ R : Type) where
  next : σ → σ × Option Bytes
  tell : σ → Event → σ × Option R

section
variable {σ R : Type} (W : Caller σ R)

/-- `Parser::parse_long`, parse.rs 285-366, with the iterator called at 344. -/
def parse_longA (se : Searcher) (sc : Schema) (cur : Cursor) (s : σ) (flag : Bytes) (value : Option Bytes) :
    Out σ R Unit :=
  orPanic (resolve_flag se sc cur flag) fun
  | none => emit W.tell s (.error (.flagUnknown flag))
  | some ((c, f), toggled) =>
    orPanic (do let cm ← sc.cmds[c]?; cm.flags[f]?) fun fl =>
    match fl.mode, toggled, value with
    | .set, true, _ | .parse, true, _ => emit W.tell s (.error (.flagUnexpectedToggle flag))
    | .set, false, some v => emit W.tell s (.error (.flagUnexpectedValue flag v))
    | .toggle, _, some v => emit W.tell s (.error (.flagUnexpectedValue flag v))
    | .set, false, none => orPanic (contextAt sc cur c) fun a => emit W.tell s (.set c f a flag)
    | .toggle, t, none => orPanic (contextAt sc cur c) fun a => emit W.tell s (.toggle c f a flag (!t))
    | .parse, false, none =>
      match W.next s with
      | (s, none) => emit W.tell s (.error (.flagNoValue flag))
      | (s, some v) => orPanic (contextAt sc cur c) fun a => emit W.tell s (.parse c f a flag v)
    | .parse, false, some v => orPanic (contextAt sc cur c) fun a => emit W.tell s (.parse c f a flag v)

/-- `Parser::parse_cursor`, parse.rs 390-508: the first `rounds` rounds of `loop`. If that is not the end,
the result is `none`. -/
def parse_cursorA (se : Searcher) (sc : Schema) : Nat → Parser → σ → Out σ R (Option Parser)
  | 0, _, s => .cont s none
  | rounds + 1, p, s =>
    match W.next s with
    | (s, none) => (report_parameter W.tell sc p.cursor s none).bind fun s _ => .cont s (some p)
    | (s, some arg) =>
      if p.commands_finalized && p.flags_finalized then
        (report_parameter W.tell sc p.cursor s (some arg)).bind fun s _ => parse_cursorA se sc rounds p s
      else
        match (if p.flags_finalized then none else split_flag arg) with
        | some (_, true, _) =>
          (emit W.tell s (.error (.flagUnknown arg))).bind fun s _ => parse_cursorA se sc rounds p s
        | some ([], false, none) =>
          parse_cursorA se sc rounds { p with commands_finalized := true, flags_finalized := true } s
        | some (flag, false, value) =>
          (parse_longA W se sc p.cursor s flag value).bind fun s _ => parse_cursorA se sc rounds p s
        | none =>
          if !p.flags_finalized && (2 ≤ arg.length && arg.head? == some 0x2d) then
            -- `parse_short`, parse.rs 272-283
            (emit W.tell s (.error (.shortsUnknown arg))).bind fun s _ => parse_cursorA se sc rounds p s
          else if !p.commands_finalized then
            (parse_command W.tell se sc p s arg (if isUtf8 arg then some arg else none)).bind fun s p =>
              parse_cursorA se sc rounds p s
          else
            (report_parameter W.tell sc p.cursor s (some arg)).bind fun s _ => parse_cursorA se sc rounds p s

/-- A call of `parse`, looked at after some rounds: still in the loop, or returned (or panicked). -/
inductive Progress (σ R : Type)
  | running (s : σ)
  | returned (r : Result σ R)
deriving DecidableEq, Repr

/-- `parse`, parse.rs 511-527, after `rounds` rounds of the loop. -/
def parseA (se : Searcher) (sc : Schema) (rounds : Nat) (s : σ) : Progress σ R :=
  match parse_cursorA W se sc rounds ⟨false, false, Cursor_with sc⟩ s with
  | .panic => .returned .panic
  | .brk s r => .returned (.stopped s r)
  | .cont s none => .running s
  | .cont s (some p) =>
    .returned (match command sc p.cursor with
      | none => .panic
      | some none => .noCommand s
      | some (some i) => .ok s i)

end
end Verif.Args
