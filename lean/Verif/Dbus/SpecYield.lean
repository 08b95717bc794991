import Verif.Dbus.ModelDec
/-! # Specification: how much a D-Bus decoder delivers -/
namespace Verif.Dbus

mutual
/-- The size of what a call delivered: 2 bytes for a number, the text with its terminator and a length of at least one byte for a
string, 4 bytes for an array that was opened. What was read with a sub-decoder counts if it was committed. -/
def Ask.size : Ask → Ans → Nat
  | .u16, .u16 _ => 2
  | .string, .str s => 4 + s.length + 1
  | .signature, .str s => 1 + s.length + 1
  | .array, .ok => 4
  | .sub _ l, .sub rs => if Ask.committed l rs then Ask.sizes l rs else 0
  | _, _ => 0
def Ask.sizes : List Ask → List Ans → Nat
  | x :: l, r :: rs => x.size r + Ask.sizes l rs
  | _, _ => 0
/-- Whether a commit succeeded. -/
def Ask.committed : List Ask → List Ans → Bool
  | .commit :: _, .ok :: _ => true
  | _ :: l, _ :: rs => Ask.committed l rs
  | _, _ => false
end

mutual
/-- The number of values that were delivered: numbers, strings and arrays. -/
def Ask.yielded : Ask → Ans → Nat
  | .u16, .u16 _ => 1
  | .string, .str _ => 1
  | .signature, .str _ => 1
  | .array, .ok => 1
  | .sub _ l, .sub rs => if Ask.committed l rs then Ask.yieldeds l rs else 0
  | _, _ => 0
def Ask.yieldeds : List Ask → List Ans → Nat
  | x :: l, r :: rs => x.yielded r + Ask.yieldeds l rs
  | _, _ => 0
end

end Verif.Dbus
