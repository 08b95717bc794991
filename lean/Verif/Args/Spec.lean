import Verif.Args.Model
/-! # Specification of argument parsing

What the documentation in `lib/osi/src/args/layout.rs` 1-104 promises, word by word, without cursors,
searches or links. `S` is the list of commands in the order of the compiled schema. -/
namespace Verif.Args

/-- Some registered path starts with `words`. -/
def Extends (S : List Command) (words : Path) : Bool := S.any fun c => words.isPrefixOf c.path

/-- The registered command with exactly this path. -/
def selected (S : List Command) (words : Path) : Option Nat := S.findIdx? fun c => c.path == words

/-- The last of the first `n` entries of `S` that satisfies `Q`. -/
def lastBelow (S : List Command) (Q : Command → Bool) : Nat → Option Nat
  | 0 => none
  | i + 1 => if S[i]?.any Q then some i else lastBelow S Q i

/-- The registered command with the longest path that is a prefix of `words`. (The commands are sorted, so
this is the last one whose path is a prefix.) -/
def nearest (S : List Command) (words : Path) : Option Nat :=
  (selected S words).or (lastBelow S (fun c => c.path.isPrefixOf words) S.length)

/-- `--` -/
def dashes : Bytes := [0x2d, 0x2d]
/-- `no-` -/
def noDash : Bytes := [0x6e, 0x6f, 0x2d]

/-- What an argument looks like. -/
inductive Shape
  /-- `--` -/
  | terminator
  /-- `--name` or `--name=value` -/
  | long (name : Bytes) (value : Option Bytes)
  /-- `--name…` with a name that is not UTF-8 -/
  | badName
  /-- `-x…` -/
  | shorts
  | word
deriving DecidableEq, Repr

def shape : Bytes → Shape
  | 0x2d :: 0x2d :: rest =>
    let name := rest.takeWhile (· ≠ 0x3d)
    let value := if 0x3d ∈ rest then some (rest.drop (name.length + 1)) else none
    if !isUtf8 name then .badName
    else if name = [] ∧ value = none then .terminator
    else .long name value
  | 0x2d :: _ :: _ => .shorts
  | _ => .word

/-- What a known flag of the given mode, spelled with or without `no-`, with or without `=value`, does. -/
inductive Action
  | set
  | toggle (value : Bool)
  | parse (value : Bytes)
  /-- the next argument is the value -/
  | parseNext
  | badToggle
  | badValue (value : Bytes)
deriving DecidableEq, Repr

def action : FlagMode → (negated : Bool) → (value : Option Bytes) → Action
  | .set, false, none => .set
  | .set, false, some v => .badValue v
  | .set, true, _ => .badToggle
  | .toggle, negated, none => .toggle (!negated)
  | .toggle, _, some v => .badValue v
  | .parse, false, some v => .parse v
  | .parse, false, none => .parseNext
  | .parse, true, _ => .badToggle

/-- What happened to one argument (or two, for a flag whose value is the next argument). -/
inductive Item
  | command (word : Bytes)
  | terminator
  | report (args : List Bytes) (e : Event)
deriving DecidableEq, Repr

/-- The arguments that an item used up. -/
def Item.args : Item → List Bytes
  | .command w => [w]
  | .terminator => [dashes]
  | .report a _ => a

/-- The report that an item makes. -/
def Item.event : Item → Option Event
  | .report _ e => some e
  | _ => none

/-- A parameter goes to the selected command. -/
def paramItem (S : List Command) (words : Path) (a : Bytes) : Item :=
  .report [a] (match selected S words with
    | some i => .parameter i (some a)
    | none => .error (.parameterUnexpected a))

/-- A flag is looked up under its full name first, and without `no-` otherwise. The `Bool` tells that the
latter was needed. -/
def resolve (find : Bytes → Option (Nat × Nat)) (name : Bytes) : Option ((Nat × Nat) × Bool) :=
  match find name with
  | some v => some (v, false)
  | none =>
    match name with
    | 0x6e :: 0x6f :: 0x2d :: bare => (find bare).map (·, true)
    | _ => none

/-- The mode of a flag. -/
def modeOf (S : List Command) (cf : Nat × Nat) : FlagMode :=
  ((S[cf.1]?.bind (·.flags[cf.2]?)).map (·.mode)).getD .set

/-- Classify all arguments, given the command words so far and whether commands and flags are still
recognised. `find words name` is the flag that `name` means after `words`. -/
def items (S : List Command) (find : Path → Bytes → Option (Nat × Nat)) :
    (words : Path) → (cmds flags : Bool) → List Bytes → List Item
  | _, _, _, [] => []
  | words, cmds, flags, a :: rest =>
    match (if flags then shape a else .word) with
    | .terminator => .terminator :: items S find words false false rest
    | .badName => .report [a] (.error (.flagUnknown a)) :: items S find words cmds flags rest
    | .shorts => .report [a] (.error (.shortsUnknown a)) :: items S find words cmds flags rest
    | .word =>
      if cmds && isUtf8 a && Extends S (words ++ [a]) then
        .command a :: items S find (words ++ [a]) cmds flags rest
      else
        paramItem S words a :: items S find words false flags rest
    | .long name value =>
      match resolve (find words) name with
      | none => .report [a] (.error (.flagUnknown name)) :: items S find words cmds flags rest
      | some ((c, f), negated) =>
        let at_ := (nearest S words).getD c
        match action (modeOf S (c, f)) negated value with
        | .set => .report [a] (.set c f at_ name) :: items S find words cmds flags rest
        | .toggle b => .report [a] (.toggle c f at_ name b) :: items S find words cmds flags rest
        | .parse v => .report [a] (.parse c f at_ name v) :: items S find words cmds flags rest
        | .badToggle => .report [a] (.error (.flagUnexpectedToggle name)) :: items S find words cmds flags rest
        | .badValue v => .report [a] (.error (.flagUnexpectedValue name v)) :: items S find words cmds flags rest
        | .parseNext =>
          match rest with
          | [] => [.report [a] (.error (.flagNoValue name))]
          | v :: rest => .report [a, v] (.parse c f at_ name v) :: items S find words cmds flags rest

/-- The command words among the items. -/
def commandWords (its : List Item) : Path :=
  its.filterMap fun
    | .command w => some w
    | _ => none

/-- End of arguments is reported to the selected command. -/
def endEvents (S : List Command) (words : Path) : List Event :=
  match selected S words with
  | some i => [.parameter i none]
  | none => []

/-- All reports of a run. -/
def events (S : List Command) (its : List Item) : List Event :=
  its.filterMap Item.event ++ endEvents S (commandWords its)

/-- Deliver reports one by one until one asks to stop. -/
def deliver {σ R : Type} (h : σ → Event → σ × Option R) (s : σ) : List Event → σ × Option R
  | [] => (s, none)
  | e :: es =>
    match h s e with
    | (s', none) => deliver h s' es
    | (s', some r) => (s', some r)

/-- The result of a run whose arguments were classified as `its`. -/
def specResult {σ R : Type} (h : σ → Event → σ × Option R) (s : σ) (S : List Command) (its : List Item) :
    Result σ R :=
  match deliver h s (events S its) with
  | (s', some r) => .stopped s' r
  | (s', none) =>
    match selected S (commandWords its) with
    | some i => .ok s' i
    | none => .noCommand s'

/-- The first registered path that starts with `words`. -/
def anchor (S : List Command) (words : Path) : Option Nat := S.findIdx? fun c => words.isPrefixOf c.path

/-- `c` defines a flag called `name`. -/
def hasFlag (name : Bytes) (c : Command) : Bool := c.flags.any (·.name == name)

/-- How flags are found: in the last command at or before the anchor of `words` that defines the name and
whose path is a prefix of the anchor's path; and not at all if no registered path starts with `words`. -/
def FlagLookup (S : List Command) (find : Path → Bytes → Option (Nat × Nat)) : Prop :=
  (∀ words name, ∀ i a, anchor S words = some i → S[i]? = some a →
    match find words name with
    | none => ∀ j c, j ≤ i → S[j]? = some c → c.path <+: a.path → hasFlag name c = false
    | some (j, f) => ∃ c fl, S[j]? = some c ∧ j ≤ i ∧ c.path <+: a.path ∧ c.flags[f]? = some fl ∧
        fl.name = name ∧
        ∀ k d, j < k → k ≤ i → S[k]? = some d → d.path <+: a.path → hasFlag name d = false) ∧
  ∀ words name, anchor S words = none → find words name = none

end Verif.Args
