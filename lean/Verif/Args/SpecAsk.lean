import Verif.Args.ModelAsk
import Verif.Args.Spec
/-! # Specification: who says what when

A log of a call of `parse`: the calls of the argument iterator with their answers, and the reports, in the
order in which they happened. `script` says what the log must be, given the answers of the iterator. -/
namespace Verif.Args

/-- One call into the caller's code. -/
inductive Act
  /-- the iterator was asked for an argument, and this was the answer -/
  | ask (answer : Option Bytes)
  /-- something was reported -/
  | tell (e : Event)
  /-- the report just made asked to stop -/
  | stop
deriving DecidableEq, Repr

/-- The answers of the iterator in a log. -/
def asks (l : List Act) : List (Option Bytes) :=
  l.filterMap fun
    | .ask o => some o
    | _ => none

/-- The reports in a log. -/
def tells (l : List Act) : List Event :=
  l.filterMap fun
    | .tell e => some e
    | _ => none

/-- What an argument turns out to be. -/
inductive ArgKind
  | command
  | terminator
  /-- something to report; `cmds` tells whether commands are still recognised afterwards -/
  | report (e : Event) (cmds : Bool)
  /-- a flag `f` of command `c` that takes the next argument as its value -/
  | wantsValue (c f at_ : Nat) (name : Bytes)
deriving DecidableEq, Repr

def argKind (S : List Command) (find : Path → Bytes → Option (Nat × Nat)) (words : Path) (cmds flags : Bool)
    (a : Bytes) : ArgKind :=
  match (if flags then shape a else .word) with
  | .terminator => .terminator
  | .badName => .report (.error (.flagUnknown a)) cmds
  | .shorts => .report (.error (.shortsUnknown a)) cmds
  | .word =>
    if cmds && isUtf8 a && Extends S (words ++ [a]) then .command
    else
      .report (match selected S words with
        | some i => .parameter i (some a)
        | none => .error (.parameterUnexpected a)) false
  | .long name value =>
    match resolve (find words) name with
    | none => .report (.error (.flagUnknown name)) cmds
    | some ((c, f), negated) =>
      let at_ := (nearest S words).getD c
      match action (modeOf S (c, f)) negated value with
      | .set => .report (.set c f at_ name) cmds
      | .toggle b => .report (.toggle c f at_ name b) cmds
      | .parse v => .report (.parse c f at_ name v) cmds
      | .badToggle => .report (.error (.flagUnexpectedToggle name)) cmds
      | .badValue v => .report (.error (.flagUnexpectedValue name v)) cmds
      | .parseNext => .wantsValue c f at_ name

/-- The report for a flag that takes the next argument as its value. -/
def valueEvent (c f at_ : Nat) (name : Bytes) : Option Bytes → Event
  | none => .error (.flagNoValue name)
  | some v => .parse c f at_ name v

/-- The report that a flag without value causes. -/
def noValue : Event → Bool
  | .error (.flagNoValue _) => true
  | _ => false

/-- The conversation, as far as the given answers determine it: every argument is asked for when everything
before it has been dealt with; a flag that takes a value asks for one more. -/
def script (S : List Command) (find : Path → Bytes → Option (Nat × Nat)) :
    (words : Path) → (cmds flags : Bool) → List (Option Bytes) → List Act
  | _, _, _, [] => []
  | words, _, _, none :: _ => .ask none :: (endEvents S words).map .tell
  | words, cmds, flags, some a :: rest =>
    .ask (some a) ::
      match argKind S find words cmds flags a with
      | .command => script S find (words ++ [a]) cmds flags rest
      | .terminator => script S find words false false rest
      | .report e cmds' => .tell e :: script S find words cmds' flags rest
      | .wantsValue c f at_ name =>
        match rest with
        | [] => []
        | o :: rest => .ask o :: .tell (valueEvent c f at_ name o) :: script S find words cmds flags rest

/-- The command words in such a conversation. -/
def entered (S : List Command) (find : Path → Bytes → Option (Nat × Nat)) :
    (words : Path) → (cmds flags : Bool) → List (Option Bytes) → Path
  | words, _, _, [] => words
  | words, _, _, none :: _ => words
  | words, cmds, flags, some a :: rest =>
      match argKind S find words cmds flags a with
      | .command => entered S find (words ++ [a]) cmds flags rest
      | .terminator => entered S find words false false rest
      | .report _ cmds' => entered S find words cmds' flags rest
      | .wantsValue _ _ _ _ =>
        match rest with
        | [] => words
        | _ :: rest => entered S find words cmds flags rest

section
variable {σ R : Type}

/-- A caller that keeps the log. -/
def watched (W : Caller σ R) : Caller (σ × List Act) R where
  next x := (((W.next x.1).1, x.2 ++ [.ask (W.next x.1).2]), (W.next x.1).2)
  tell x e :=
    (((W.tell x.1 e).1, x.2 ++ .tell e :: if (W.tell x.1 e).2.isSome then [.stop] else []), (W.tell x.1 e).2)

/-- A caller whose iterator goes through a list, as that of a slice or of `std::env::args_os` does. -/
def listing (h : σ → Event → σ × Option R) : Caller (σ × List Bytes) R where
  next x := ((x.1, x.2.tail), x.2.head?)
  tell x e := (((h x.1 e).1, x.2), (h x.1 e).2)

/-- A result with another state. -/
def Result.mapState {τ : Type} (g : σ → τ) : Result σ R → Result τ R
  | .panic => .panic
  | .ok s i => .ok (g s) i
  | .noCommand s => .noCommand (g s)
  | .stopped s r => .stopped (g s) r

/-- Progress with another state. -/
def Progress.mapState {τ : Type} (g : σ → τ) : Progress σ R → Progress τ R
  | .running s => .running (g s)
  | .returned r => .returned (r.mapState g)

/-- The state in which a call is, or has left its caller. -/
def Progress.state : Progress σ R → Option σ
  | .running s => some s
  | .returned .panic => none
  | .returned (.ok s _) => some s
  | .returned (.noCommand s) => some s
  | .returned (.stopped s _) => some s

end
end Verif.Args
