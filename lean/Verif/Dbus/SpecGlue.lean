import Verif.Dbus.SpecDvar
/-! # Specification: putting encodings together (C138) -/
namespace Verif.Dbus.Glue
open Verif.Io

/-- Encodings put one behind the other, behind what is there already: each is given with its alignment, and zeros are put in front of it up to a multiple of
that. -/
def glue : List UInt8 → List (Nat × List UInt8) → List UInt8
  | acc, [] => acc
  | acc, (a, b) :: ps => glue (acc ++ pad acc.length a ++ b) ps

#guard glue [7, 7, 7] [(1, [1]), (2, [2, 2]), (8, [3])] = [7, 7, 7, 1, 2, 2, 0, 0, 3]

end Verif.Dbus.Glue
