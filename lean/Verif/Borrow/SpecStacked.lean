import Verif.Borrow.SpecMachine
/-! # Specification: Stacked Borrows

The borrow model of Jung, Dang, Kang and Dreyer (POPL 2020) as Miri implements it: every byte has a stack of items. Left out are
protectors (of references passed to a function that has not returned yet), two-phase borrows and types with interior mutability. -/
namespace Verif.Borrow

/-- What an item permits. -/
inductive Perm
  | unique
  | sharedRW
  | sharedRO
  | disabled
deriving DecidableEq

structure Item where
  tag : Nat
  perm : Perm
deriving DecidableEq

/-- The stack of one byte, its top first. -/
abbrev Stack := List Item

def Perm.grants : Perm → Access → Bool
  | .unique, _ => true
  | .sharedRW, _ => true
  | .sharedRO, .read => true
  | .sharedRO, .write => false
  | .disabled, _ => false

/-- The item permits that access by that tag. -/
def Item.grants (t : Nat) (k : Access) (i : Item) : Bool := i.tag == t && i.perm.grants k

/-- A stack seen from the topmost item that permits the access: the items above it, the item and those below. -/
def granting (t : Nat) (k : Access) (s : Stack) : Option (Stack × Item × Stack) :=
  match s.dropWhile (fun i => !i.grants t k) with
  | [] => none
  | i :: below => some (s.takeWhile (fun i => !i.grants t k), i, below)

/-- Reading through an item disables the unique items above it. -/
def disable (i : Item) : Item := if i.perm = .unique then { i with perm := .disabled } else i

/-- The block of `sharedRW` items at the bottom of these, which writing through a `sharedRW` item right below leaves alone. -/
def block (i : Item) (above : Stack) : Stack :=
  if i.perm = .sharedRW then (above.reverse.takeWhile (fun j => j.perm == .sharedRW)).reverse else []

/-- The items on top of that block. -/
def beyond (i : Item) (above : Stack) : Stack :=
  if i.perm = .sharedRW then (above.reverse.dropWhile (fun j => j.perm == .sharedRW)).reverse else above

/-- What an access does to the stack of a byte. -/
def Stack.access (k : Access) (t : Nat) (s : Stack) : Option Stack :=
  (granting t k s).map fun (above, i, below) =>
    match k with
    | .read => above.map disable ++ i :: below
    | .write => block i above ++ i :: below

/-- What making a pointer of that kind, with tag `new`, does to the stack of a byte. A reference is an access, and then goes on
top. A `*mut` pointer is no access, and goes right above the item it is made from. -/
def Stack.reborrow (k : Kind) (t new : Nat) (s : Stack) : Option Stack :=
  match k with
  | .unique => (s.access .write t).map (⟨new, .unique⟩ :: ·)
  | .shared | .rawConst => (s.access .read t).map (⟨new, .sharedRO⟩ :: ·)
  | .rawMut => (granting t .write s).map fun (above, i, below) => beyond i above ++ ⟨new, .sharedRW⟩ :: (block i above ++ i :: below)

/-- All stacks, and the next tag to be given out. -/
structure Stacks where
  at_ : Nat → Stack
  next : Nat

/-- Do something to the stacks of a range. -/
def Stacks.each (s : Stacks) (lo n : Nat) (f : Stack → Option Stack) : Option (Nat → Stack) :=
  if (List.range n).all (fun d => (f (s.at_ (lo + d))).isSome) then
    some fun a => if lo ≤ a ∧ a < lo + n then (f (s.at_ a)).getD [] else s.at_ a
  else none

/-- Stacked Borrows. In the states of a program, no item has a tag that was not given out. -/
def stacked : Machine Stacks Nat where
  access s t lo n k := (s.each lo n (Stack.access k t)).map fun at_ => { s with at_ }
  reborrow k s t lo n := (s.each lo n (Stack.reborrow k t s.next)).map fun at_ => ({ at_, next := s.next + 1 }, s.next)
  Valid s := ∀ a, ∀ i ∈ s.at_ a, i.tag < s.next
  Known s t := t < s.next

end Verif.Borrow
