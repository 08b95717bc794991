import Verif.Dbus.SpecDvar
/-! # Specification: types that have values -/
namespace Verif.Dbus

/-- The basic types for which there are values in `SpecDvar.lean`. -/
def Basic.valued : Basic → Bool
  | .uint16 | .uint32 | .uint64 | .string | .objectPath | .signature => true
  | _ => false

mutual
/-- Types with values: made of basic types with values, without maybes and empty structures. -/
def Ty.valued : Ty → Bool
  | .basic b => b.valued
  | .variant => true
  | .array t => t.valued
  | .maybe _ => false
  | .struct ts => !ts.isEmpty && Ty.valueds ts
  | .dict k v => k.valued && v.valued
def Ty.valueds : List Ty → Bool
  | [] => true
  | t :: ts => t.valued && Ty.valueds ts
end

end Verif.Dbus
