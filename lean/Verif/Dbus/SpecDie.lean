import Verif.Dbus.SpecPanic
/-! # Specification: commits during which the writer panics -/
namespace Verif.Dbus.Die

/-- How many commits of the outermost encoder panicked. -/
def deaths : List Op → List OutU → Nat
  | .commit :: ops, .res .panic :: outs => deaths ops outs + 1
  | _ :: ops, _ :: outs => deaths ops outs
  | _, _ => 0

end Verif.Dbus.Die
