import Verif.Dbus.ModelMem
/-! # Specification: which answers and calls the bounds on memory are about -/
namespace Verif.Dbus

mutual
/-- No answer says that data is missing. -/
def Ans.clean : Ans → Prop
  | .brk none => False
  | .brk (some (.io _)) => False
  | .sub l => Ans.cleans l
  | _ => True
def Ans.cleans : List Ans → Prop
  | [] => True
  | a :: l => a.clean ∧ Ans.cleans l
end

/-- Calls other than for a sub-decoder. -/
def Ask.plain : Ask → Bool
  | .sub .. => false
  | _ => true

/-- No answer is an error. -/
def Ans.fine : Ans → Bool
  | .brk _ => false
  | _ => true

end Verif.Dbus
