import Verif.Io.ModelGrow
/-! # Specification: what growing vectors cost -/
namespace Verif.Io

/-- The allocator at least doubles vectors when they grow, as far as that is possible. `Vec::reserve` promises that "to speculatively avoid
frequent reallocations", and not that it is the double. -/
def Alloc.Doubles (A : Alloc) : Prop := ∀ v n, min (2 * v.cap) isizeMax ≤ A.grow v n

/-- The allocator does not grow vectors beyond the double of their size, or what is needed, or 8 bytes. -/
def Alloc.Modest (A : Alloc) : Prop := ∀ v n, A.grow v n ≤ max 8 (max (2 * v.cap) (v.len + n))

/-- The end of what a call asks for; nothing is asked for beyond the address space. -/
def SCall.reach (v : RawVec) : SCall → Nat
  | .map min max _ => v.len + max.getD min
  | .unchecked n _ => v.len + n
  | .commit _ => 0
  | .write bs => v.len + bs.length
def MCall.reach : MCall → Nat
  | .map idx len _ => if idx + len ≤ usizeMax then idx + len else 0
  | .commit _ => 0

/-- What a history of calls took: the bytes that were copied in all, the furthest end of what was asked for, and the capacity at the end. -/
structure Cost where
  moved : Nat
  reach : Nat
  room : Nat
deriving DecidableEq, Repr

/-- The cost of a history of calls. It may end in a panic, in which case the last call copied nothing, or in a breach of contract. -/
def SCall.cost (A : Alloc) : List SCall → RawVec → Ledger → Cost
  | [], v, _ => ⟨0, 0, v.cap⟩
  | c :: l, v, s =>
    match c.play A v s with
    | .done (v', s', _, _) =>
      let r := SCall.cost A l v' s'
      ⟨c.moves v + r.moved, max (c.reach v) r.reach, r.room⟩
    | _ => ⟨0, 0, v.cap⟩
def MCall.cost (A : Alloc) : List MCall → RawVec → Ledger → Cost
  | [], v, _ => ⟨0, 0, v.cap⟩
  | c :: l, v, s =>
    match c.play A v s with
    | .done (v', s') =>
      let r := MCall.cost A l v' s'
      ⟨c.moves v + r.moved, max c.reach r.reach, r.room⟩
    | _ => ⟨0, 0, v.cap⟩

end Verif.Io
