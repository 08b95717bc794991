import Verif.Borrow.SpecStacked
import Verif.Borrow.SpecTree
import Verif.Borrow.ModelBorrow
/-! # Specification for pointers under the borrow models (C114) -/
namespace Verif.Borrow

/-- The two borrow models that Miri checks programs against. -/
inductive BorrowModel : {S T : Type} → Machine S T → Prop
  | stacked : BorrowModel stacked
  | tree : BorrowModel tree

variable {w : Nat} {S T : Type}

/-- A field of a container: its offset and both sizes. -/
structure Member (w : Nat) where
  offset : BitVec w
  field : Nat
  container : Nat
  inside : offset.toNat + field ≤ container
  /-- No object is larger than `isize::MAX`. -/
  small : container < 2 ^ (w - 1)

/-- The container at `v` is in the address space. -/
def Member.At (m : Member w) (v : Pointer w T) : Prop := v.addr.toNat + m.container < 2 ^ w

/-- All bytes of the value of that size that `p` points to can be read or written through it. -/
def Can (M : Machine S T) (k : Access) (size : Nat) (s : S) (p : Pointer w T) : Prop :=
  UsableAll M s p.tag p.addr.toNat size k

/-- A pointer that a program may have, and through which it may access the value of that size. -/
structure Has (M : Machine S T) (k : Access) (size : Nat) (s : S) (p : Pointer w T) : Prop where
  valid : M.Valid s
  known : M.Known s p.tag
  can : Can M k size s p

/-- The pointer last put into a tagged pointer. -/
def lastPtr (v : Pointer w T) : List (Call4 w T) → Pointer w T
  | [] => v
  | .setPtr u :: cs => lastPtr u cs
  | _ :: cs => lastPtr v cs

end Verif.Borrow
