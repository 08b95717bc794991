import Verif.Args.Model
/-! # Schemas that are changed in place

`FlagSetRef::flag_mut_at`, `CommandSetRef::command_mut_at`, `Schema::flag_mut_at` and `Schema::command_mut_at`
(`lib/osi/src/args/layout.rs` 306-311, 489-494, 571-576 and 587-592) give out mutable references, to which a caller can assign. -/
namespace Verif.Args

/-- An assignment through such a reference. A swap is two of them. -/
inductive Edit
  /-- `*schema.flag_mut_at((c, f)) = new` -/
  | flag (c f : Nat) (new : Flag)
  /-- `*schema.command_mut_at(c) = new` -/
  | command (c : Nat) (new : Command)
deriving DecidableEq, Repr

/-- One assignment; the links between commands stay as they are. `none` is the panic of an index out of bounds. -/
def edit (sc : Schema) : Edit → Option Schema
  | .flag c f new =>
    match sc.cmds[c]? with
    | none => none
    | some cmd => if f < cmd.flags.length then some { sc with cmds := sc.cmds.set c { cmd with flags := cmd.flags.set f new } } else none
  | .command c new => if c < sc.cmds.length then some { sc with cmds := sc.cmds.set c new } else none

/-- A history of assignments. -/
def edits (sc : Schema) : List Edit → Option Schema
  | [] => some sc
  | e :: es => match edit sc e with
    | none => none
    | some sc => edits sc es

end Verif.Args
