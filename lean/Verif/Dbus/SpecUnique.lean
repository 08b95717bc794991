import Verif.Dbus.SpecDvar
/-! # Specification: values whose elements can be counted -/
namespace Verif.Dbus

mutual
/-- Types of structures with nothing in them. -/
def Ty.hollow : Ty → Bool
  | .struct ts => Ty.hollows ts
  | _ => false
def Ty.hollows : List Ty → Bool
  | [] => true
  | t :: ts => t.hollow && Ty.hollows ts
end

mutual
/-- No array in the value, at any depth, is of hollow structures. -/
def Val.solid : Val → Prop
  | .variant _ v => v.solid
  | .array t vs => t.hollow = false ∧ Val.solids vs
  | .struct vs => Val.solids vs
  | .dict k v => k.solid ∧ v.solid
  | _ => True
def Val.solids : List Val → Prop
  | [] => True
  | v :: vs => v.solid ∧ Val.solids vs
end

#guard (Ty.struct [.struct [], .struct []]).hollow
#guard !(Ty.struct [.struct [], .array (.struct [])]).hollow

end Verif.Dbus
