import Verif.Dbus.SpecDvar
/-! # Specification: data in the other byte order -/
namespace Verif.Dbus
open Verif.Io

/-- `Flipped off ns a b`: from position `off` on, `b` is `a` with the bytes of the numbers `ns` reversed, which are given by
their positions and sizes. The numbers have 2, 4 or 8 bytes, do not overlap, and each begins at a multiple of its size. All
else is the same. -/
inductive Flipped : Nat → List (Nat × Nat) → List UInt8 → List UInt8 → Prop
  | done (off : Nat) : Flipped off [] [] []
  | byte (off : Nat) (x : UInt8) (ns : List (Nat × Nat)) (a b : List UInt8) : Flipped (off + 1) ns a b →
      Flipped off ns (x :: a) (x :: b)
  | num (off : Nat) (n : List UInt8) (ns : List (Nat × Nat)) (a b : List UInt8) : n.length = 2 ∨ n.length = 4 ∨ n.length = 8 →
      off % n.length = 0 → Flipped (off + n.length) ns a b → Flipped off ((off, n.length) :: ns) (n ++ a) (n.reverse ++ b)

mutual
/-- The number of bytes of the value at an offset. -/
def Val.size (off : Nat) : Val → Nat
  | .u16 _ => padding off 2 + 2
  | .u32 _ => padding off 4 + 4
  | .u64 _ => padding off 8 + 8
  | .string s => padding off 4 + 4 + s.length + 1
  | .object s => padding off 4 + 4 + s.length + 1
  | .signature s => 1 + s.length + 1
  | .variant t v => 1 + t.size + 1 + v.size (off + t.size + 2)
  | .array t vs => firstElement off t - off + Val.sizes (firstElement off t) vs
  | .struct vs => padding off 8 + Val.sizes (off + padding off 8) vs
  | .dict k v => padding off 8 + k.size (off + padding off 8) + v.size (off + padding off 8 + k.size (off + padding off 8))
/-- The number of bytes of values one after the other. -/
def Val.sizes (off : Nat) : List Val → Nat
  | [] => 0
  | v :: vs => v.size off + Val.sizes (off + v.size off) vs
end

mutual
/-- The positions and sizes of the numbers of a value: those in it, and the lengths of strings and arrays. The lengths of
signatures are single bytes. -/
def Val.numbers (off : Nat) : Val → List (Nat × Nat)
  | .u16 _ => [(off + padding off 2, 2)]
  | .u32 _ => [(off + padding off 4, 4)]
  | .u64 _ => [(off + padding off 8, 8)]
  | .string _ => [(off + padding off 4, 4)]
  | .object _ => [(off + padding off 4, 4)]
  | .signature _ => []
  | .variant t v => v.numbers (off + t.size + 2)
  | .array t vs => (off + padding off 4, 4) :: Val.numberss (firstElement off t) vs
  | .struct vs => Val.numberss (off + padding off 8) vs
  | .dict k v => k.numbers (off + padding off 8) ++ v.numbers (off + padding off 8 + k.size (off + padding off 8))
def Val.numberss (off : Nat) : List Val → List (Nat × Nat)
  | [] => []
  | v :: vs => v.numbers off ++ Val.numberss (off + v.size off) vs
end

/-! ## What is left of calls without the values -/

mutual
/-- A call with its values replaced: numbers by zero, strings by zero bytes of the same number. -/
def Op.shape : Op → Op
  | .u16 _ => .u16 0
  | .u32 _ => .u32 0
  | .u64 _ => .u64 0
  | .string s => .string (List.replicate s.length 0)
  | .object s => .object (List.replicate s.length 0)
  | .signature s => .signature (List.replicate s.length 0)
  | .variant s => .variant s
  | .array => .array
  | .structure => .structure
  | .dict => .dict
  | .close => .close
  | .commit => .commit
  | .sub s ops => .sub s (Op.shapes ops)
def Op.shapes : List Op → List Op
  | [] => []
  | op :: ops => op.shape :: Op.shapes ops
end

/-- Memory of which the same bytes have been written, whatever they are. -/
def SameCells (m m' : Mem) : Prop := ∀ i, (m i).isSome = (m' i).isSome

end Verif.Dbus
