import Verif.Args.SpecBind
/-! # Specification of command lines whose parts are in any order -/
namespace Verif.Args

/-- One part of a command line: a word of the command, something said about a flag, a parameter. -/
inductive Part
  | word (w : Bytes)
  | setting (st : Setting)
  | param (p : Bytes)
deriving DecidableEq, Repr

/-- How it is written. -/
def Part.args : Part → List Bytes
  | .word w => [w]
  | .setting st => st.args
  | .param p => [p]

/-- The end of a line: nothing, or `--` and more parameters. -/
def lineEnd : Option (List Bytes) → List Bytes
  | none => []
  | some ps => dashes :: ps

/-- The parts one after the other, and possibly `--` and more parameters. -/
def mixedLine (parts : List Part) (after : Option (List Bytes)) : List Bytes :=
  parts.flatMap Part.args ++ lineEnd after

/-- The words of the command. -/
def partWords (parts : List Part) : Path :=
  parts.filterMap fun
    | .word w => some w
    | _ => none

/-- The parameters, those after `--` included. -/
def partParams (parts : List Part) (after : Option (List Bytes)) : List Bytes :=
  (parts.filterMap fun
    | .param p => some p
    | _ => none) ++ after.getD []

/-- What is said about flags, each with the words of the command that stand before it. -/
def said : Path → List Part → List (Path × Setting)
  | _, [] => []
  | ws, .word w :: rest => said (ws ++ [w]) rest
  | ws, .setting st :: rest => (ws, st) :: said ws rest
  | ws, .param _ :: rest => said ws rest

/-- Every part stands where it can, on a line for the command `P`, after the words `ws`. The words of the command
stand before its parameters. A flag may stand anywhere after the words of a command with which it can be used. A
parameter does not look like a flag, and the first one does not look like a further word of a command. -/
def InPlace (cs : List Command) (P : Path) : (ws : Path) → (seen : Bool) → List Part → Prop
  | _, _, [] => True
  | ws, seen, .word w :: rest => seen = false ∧ InPlace cs P (ws ++ [w]) seen rest
  | ws, seen, .setting st :: rest => (∃ c ∈ cs, c.path = ws) ∧ Usable cs ws st ∧ InPlace cs P ws seen rest
  | ws, seen, .param p :: rest => ws = P ∧ (∀ x xs, p ≠ 0x2d :: x :: xs) ∧
      (seen = false → ∀ c ∈ cs, ¬ ws ++ [p] <+: c.path) ∧ InPlace cs P ws true rest

/-- The reports that such a line is to make, in order. `idx` is the index of each command. -/
def partLetters (idx : Path → Nat) (P : Path) : (ws : Path) → List Part → List Letter
  | _, [] => []
  | ws, .word w :: rest => partLetters idx P (ws ++ [w]) rest
  | ws, .setting st :: rest => .flag st.owner st.flag.name (idx ws) st.report :: partLetters idx P ws rest
  | ws, .param p :: rest => .param P (some p) :: partLetters idx P ws rest

/-- All reports of the line. -/
def mixedLetters (idx : Path → Nat) (P : Path) (parts : List Part) (after : Option (List Bytes)) : List Letter :=
  partLetters idx P [] parts ++ (after.getD []).map (fun p => .param P (some p)) ++ [.param P none]

/-- What is said about the flags that share the target at `l`. -/
def saidTo (B : Binding) (l : B.Loc) (parts : List Part) : List (Path × Setting) :=
  letI := B.dec
  (said [] parts).filter fun x => decide (B.loc x.2.owner x.2.flag.name = l)

end Verif.Args
