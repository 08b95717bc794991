import Verif.Args.Model
/-! # Specification: the same commands in another order -/
namespace Verif.Args

/-- One command after the other: the same, with its flags in any order. -/
inductive Reflagged : List Command → List Command → Prop
  | nil : Reflagged [] []
  | cons (c d : Command) (cs ds : List Command) : c.path = d.path → c.help_short = d.help_short → c.flags.Perm d.flags →
      Reflagged cs ds → Reflagged (c :: cs) (d :: ds)

/-- The same commands in any order, each with the same flags in any order. -/
def SameCommands (cs ds : List Command) : Prop := ∃ es, cs.Perm es ∧ Reflagged es ds

/-- No two commands have the same path, and no two flags of a command have the same name. -/
def Unambiguous (cs : List Command) : Prop := (cs.map (·.path)).Nodup ∧ ∀ c ∈ cs, (c.flags.map (·.name)).Nodup

instance (cs : List Command) : Decidable (Unambiguous cs) := inferInstanceAs (Decidable (_ ∧ _))

end Verif.Args
