import Verif.Borrow.SpecMachine
/-! # Specification: Tree Borrows

The borrow model of Villani, Hostert, Dreyer and Jung (PLDI 2025): tags form a tree and every tag has a permission at every byte.
Left out are protectors and types with interior mutability. -/
namespace Verif.Borrow

/-- What a tag permits at a byte. -/
inductive TPerm
  | reserved
  | active
  | frozen
  | disabled
deriving DecidableEq

/-- A tag is its path in the tree, its own number first. -/
abbrev Path := List Nat

/-- `t` is `u` or derived from it. -/
def Path.under (t u : Path) : Bool := u.isSuffixOf t

/-- What an access does to the permission of a tag from which the used pointer is derived. -/
def TPerm.own : TPerm → Access → Option TPerm
  | .reserved, .read => some .reserved
  | .reserved, .write => some .active
  | .active, _ => some .active
  | .frozen, .read => some .frozen
  | .frozen, .write => none
  | .disabled, _ => none

/-- What an access does to the permission of all other tags. -/
def TPerm.foreign : TPerm → Access → TPerm
  | .reserved, .read => .reserved
  | .active, .read => .frozen
  | .frozen, .read => .frozen
  | .disabled, .read => .disabled
  | _, .write => .disabled

/-- The permissions of all tags at one byte. -/
abbrev Perms := Path → TPerm

/-- The tags from which `t` is derived, and itself. -/
def Path.above : Path → List Path
  | [] => [[]]
  | n :: t => (n :: t) :: Path.above t

/-- What an access does at a byte. -/
def Perms.access (k : Access) (t : Path) (p : Perms) : Option Perms :=
  if (Path.above t).all (fun u => ((p u).own k).isSome) then
    some fun u => if t.under u then ((p u).own k).getD .disabled else (p u).foreign k
  else none

/-- The permissions of all tags at all bytes, and the next number to be given out. -/
structure Tree where
  at_ : Nat → Perms
  next : Nat

/-- Read or write a range. -/
def Tree.access (s : Tree) (t : Path) (lo n : Nat) (k : Access) : Option Tree :=
  if (List.range n).all (fun d => ((s.at_ (lo + d)).access k t).isSome) then
    some { s with at_ := fun a => if lo ≤ a ∧ a < lo + n then ((s.at_ a).access k t).getD (s.at_ a) else s.at_ a }
  else none

/-- Add a tag below `t`, with the same permission at all bytes, not only those of the reference. -/
def Tree.add (s : Tree) (t : Path) (p : TPerm) : Tree × Path :=
  ({ at_ := fun a u => if u = s.next :: t then p else s.at_ a u, next := s.next + 1 }, s.next :: t)

/-- Tree Borrows. Making a reference reads what it points to. Raw pointers have the tag of what they are made from. -/
def tree : Machine Tree Path where
  access := Tree.access
  reborrow k s t lo n := match k with
    | .rawMut | .rawConst => some (s, t)
    | .unique => (s.access t lo n .read).map fun s => s.add t .reserved
    | .shared => (s.access t lo n .read).map fun s => s.add t .frozen
  Valid _ := True
  Known s t := ∀ m ∈ t, m < s.next

end Verif.Borrow
