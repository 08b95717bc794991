import Verif.Dbus.SpecDec
/-! # Specification: which of the data of a value a decoder looks at -/
namespace Verif.Dbus
open Verif.Io

/-- Requirements on a byte of the data. -/
inductive Cell
  /-- It has to be this one. -/
  | byte (b : UInt8)
  /-- It has to be there, its value does not matter. -/
  | any
  /-- It may even be missing. -/
  | free
deriving DecidableEq

/-- Given bytes. -/
def cells (bs : List UInt8) : List Cell := bs.map .byte

mutual
/-- The marshalled value at an offset (`Val.marshal`), but with any padding, any terminators and any lengths of arrays. -/
def Val.cells (be : Bool) (off : Nat) : Val → List Cell
  | .u16 v => List.replicate (padding off 2) .free ++ Dbus.cells (enNum be 2 v.toNat)
  | .string s => List.replicate (padding off 4) .free ++ Dbus.cells (enNum be 4 s.length ++ s) ++ [.free]
  | .signature s => Dbus.cells (enNum be 1 s.length ++ s) ++ [.free]
  | .array t vs => List.replicate (padding off 4) .free ++ List.replicate 4 .any
      ++ List.replicate (padding (off + padding off 4 + 4) (2 ^ t.dvarAlign)) .free ++ Val.cellsAll be (firstElement off t) vs
  | v => Dbus.cells (v.marshal be off)
/-- Values one after the other. -/
def Val.cellsAll (be : Bool) (off : Nat) : List Val → List Cell
  | [] => []
  | v :: vs => v.cells be off ++ Val.cellsAll be (off + (v.cells be off).length) vs
end

mutual
/-- The lengths of all strings fit into their fields. -/
def Val.texts : Val → Prop
  | .string s => s.length < 2 ^ 32
  | .signature s => s.length < 2 ^ 8
  | .array _ vs => Val.textsAll vs
  | _ => True
def Val.textsAll : List Val → Prop
  | [] => True
  | v :: vs => v.texts ∧ Val.textsAll vs
end

/-- A byte of the data, `none` if the data ends before it, is as required. -/
def Cell.meets : Cell → Option UInt8 → Prop
  | .byte b, x => x = some b
  | .any, x => x ≠ none
  | .free, _ => True

/-- The data from `off` on is as required. -/
def Meets (data : List UInt8) (off : Nat) (cs : List Cell) : Prop :=
  ∀ (i : Nat) (c : Cell), cs[i]? = some c → c.meets data[off + i]?

instance (c : Cell) (x : Option UInt8) : Decidable (c.meets x) := by
  cases c <;> simp only [Cell.meets] <;> infer_instance

instance (data : List UInt8) (off : Nat) (cs : List Cell) : Decidable (Meets data off cs) :=
  decidable_of_iff (∀ i : Fin cs.length, cs[i].meets data[off + i.val]?)
    ⟨fun h i c hc => by
      obtain ⟨hi, rfl⟩ := List.getElem?_eq_some_iff.mp hc
      exact h ⟨i, hi⟩,
    fun h i => h i.val _ (List.getElem?_eq_getElem i.isLt)⟩

#guard (Val.array (.basic .uint16) [.u16 1]).cells false 0 = [.any, .any, .any, .any, .byte 1, .byte 0]

end Verif.Dbus
