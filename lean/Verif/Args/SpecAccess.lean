import Verif.Args.Spec
import Verif.Args.ModelAccess
/-! # Specification: reading a schema -/
namespace Verif.Args

/-- The places named in a report exist, and what is there fits the report: a flag with the name that was given (without `no-` if
the flag was turned off), with the mode that the report is for. -/
def Placed (sc : Schema) : Event → Prop
  | .error _ => True
  | .parameter c _ => ∃ cmd, command_at sc c = some cmd
  | .set c f at_ n => (∃ fl, flag_at sc (c, f) = some fl ∧ fl.mode = .set ∧ fl.name = n) ∧ ∃ cmd, command_at sc at_ = some cmd
  | .toggle c f at_ n v => (∃ fl, flag_at sc (c, f) = some fl ∧ fl.mode = .toggle ∧ n = if v then fl.name else noDash ++ fl.name)
      ∧ ∃ cmd, command_at sc at_ = some cmd
  | .parse c f at_ n _ => (∃ fl, flag_at sc (c, f) = some fl ∧ fl.mode = .parse ∧ fl.name = n) ∧ ∃ cmd, command_at sc at_ = some cmd

/-- Iterators as positions. -/
def posStep (n : Nat) (ps : List Nat) : IterOp → Option (List Nat × Option Nat)
  | .iter => some (ps ++ [0], none)
  | .iterFrom start => if n < start then none else some (ps ++ [start], none)
  | .clone i => ps[i]?.map fun p => (ps ++ [p], none)
  | .next i => ps[i]?.map fun p => (ps.set i (p + 1), some p)

/-- What each `next` of a history yields, by the position it asks for: the command there, and nothing behind the last one. -/
def posRun (at_ : Nat → Option Command) (n : Nat) (ps : List Nat) : List IterOp → Option (List (Option (Option Command)))
  | [] => some []
  | op :: ops =>
    match posStep n ps op with
    | none => none
    | some (ps, out) => (posRun at_ n ps ops).map ((out.map fun p => if p < n then at_ p else none) :: ·)

end Verif.Args
