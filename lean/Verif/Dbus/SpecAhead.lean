import Verif.Dbus.SpecRetry
/-! # Specification: histories in which nothing was refused (C139) -/
namespace Verif.Dbus.Ahead

mutual
/-- An answer that is not a refusal of the reader, nor are those of the sub-decoder. -/
def Answered : Ans → Prop
  | .sub rs => AllAnswered rs
  | r => r.waits = false
def AllAnswered : List Ans → Prop
  | [] => True
  | r :: rs => Answered r ∧ AllAnswered rs
end

end Verif.Dbus.Ahead
