import Verif.Dbus.ModelDvar
/-! # Specification for C137: which arrays are open, and encoders at their beginning -/
namespace Verif.Dbus.Final

/-- What a call does to the list of what is open, innermost first; `true` stands for arrays. Only accepted calls count. -/
def track (st : List Bool) : Op → Out → List Bool
  | .array, .res .ok => true :: st
  | .structure, .res .ok => false :: st
  | .dict, .res .ok => false :: st
  | .variant _, .res .ok => false :: st
  | .close, .res .ok => st.tail
  | _, _ => st

/-- What is open after calls with these answers. -/
def tracks (st : List Bool) : List Op → List Out → List Bool
  | op :: ops, o :: os => tracks (track st op o) ops os
  | _, _ => st

/-- How many arrays are open after calls with these answers. -/
def openArrays (ops : List Op) (os : List Out) : Nat := (tracks [] ops os).count true

/-- An encoder at its beginning: a new one, or a sub-encoder. -/
def Begins (e : Enc) : Prop := (∃ s be, Enc.with_ s be = some e) ∨ ∃ p : Enc, p.sub = some (some e)

end Verif.Dbus.Final
