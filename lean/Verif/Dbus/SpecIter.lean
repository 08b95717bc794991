import Verif.Dbus.ModelStatic
/-! # Specification: using a cursor -/
namespace Verif.Dbus

/-- Ways to move a cursor, and to take an element from it. -/
inductive Move
  | next
  | moveNext
  | movePrev
  | moveStep
  | moveDown
  | moveUp

/-- `none` is a panic. -/
def Move.run : Move → Cursor → Option Cursor
  | .next, c => c.next.map (·.2)
  | .moveNext, c => c.move_next
  | .movePrev, c => c.move_prev
  | .moveStep, c => c.move_step
  | .moveDown, c => c.move_down
  | .moveUp, c => c.move_up

/-- One move after the other. -/
def Move.runs : List Move → Cursor → Option Cursor
  | [], c => some c
  | m :: ms, c => (m.run c).bind (Move.runs ms)

/-- What a number of calls of `next` yield. -/
def Cursor.yields : Nat → Cursor → Option (List (Option Element))
  | 0, _ => some []
  | n + 1, c => c.next.bind fun r => (Cursor.yields n r.2).map (r.1 :: ·)

/-- `Within r s`: `s` is the signature `r`, or was taken from it as a sub-signature, of a sub-signature and so on. -/
inductive Within (r : Sig) : Sig → Prop
  | self : Within r r
  | sub {s s' : Sig} {i : Nat} : Within r s → s.at_ i = some (some s') → Within r s'

end Verif.Dbus
