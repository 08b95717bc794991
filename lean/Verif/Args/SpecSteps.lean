import Verif.Args.PropsBind
/-! # Specification of what a parser has told, for arguments that follow each other -/
namespace Verif.Args

/-- The command that was selected. -/
def Result.command {σ R : Type} : Result σ R → Option Nat
  | .ok _ i => some i
  | _ => none

/-- A report of an argument, and not of the end of the arguments. -/
def Event.isArg : Event → Bool
  | .parameter _ none => false
  | _ => true

/-- All reports that the parser makes of the given arguments, to report objects that never ask it to stop. -/
def told (so : Sorter) (se : Searcher) (cs : List Command) (args : List Bytes) : List Event :=
  (((parse record se (compile so cs) args []).state.map (·.1)).getD []).filter Event.isArg

/-- The command that it selects. -/
def chosen (so : Sorter) (se : Searcher) (cs : List Command) (args : List Bytes) : Option Nat :=
  (parse record se (compile so cs) args []).command

/-- The arguments end with a flag whose value is missing. -/
def Waits (es : List Event) : Prop := ∃ name, .error (.flagNoValue name) ∈ es

/-- A report about a flag that is complete, be it right or wrong: not about a parameter, and not that a value is
missing. -/
def Event.isFlag : Event → Bool
  | .parameter _ _ | .error (.parameterUnexpected _) | .error (.flagNoValue _) => false
  | _ => true

end Verif.Args
