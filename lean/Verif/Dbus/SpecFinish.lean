import Verif.Dbus.SpecDvar
/-! # Specification: what an encoder can still be asked to write -/
namespace Verif.Dbus.Finish
open Verif.Dbus

/-- The basic types for which there are calls, dvar.rs: `u16`, `u32`, `u64`, `string`, `object` and `signature`. -/
def known : Basic → Bool
  | .uint16 => true
  | .uint32 => true
  | .uint64 => true
  | .string => true
  | .objectPath => true
  | .signature => true
  | _ => false

mutual
/-- There are calls for everything the type consists of. -/
def Callable : Ty → Prop
  | .basic b => known b = true
  | .variant => True
  | .array t => Callable t
  | .maybe _ => False
  | .struct ts => Callables ts
  | .dict k v => known k = true ∧ Callable v
def Callables : List Ty → Prop
  | [] => True
  | t :: ts => Callable t ∧ Callables ts
end

mutual
/-- Like `Callable`, except that arrays may be left empty. -/
def Inhabited : Ty → Prop
  | .basic b => known b = true
  | .variant => True
  | .array _ => True
  | .maybe _ => False
  | .struct ts => Inhabiteds ts
  | .dict k v => known k = true ∧ Inhabited v
def Inhabiteds : List Ty → Prop
  | [] => True
  | t :: ts => Inhabited t ∧ Inhabiteds ts
end

/-- Variants are opened with such types only. Sub-encoders are gone once they are dropped, hence may be used in any way. -/
def Plain : Op → Prop
  | .variant s => ∀ t, View s t → Callable t
  | _ => True

/-- The number of codes of types. -/
def codes : List Ty → Nat
  | [] => 0
  | t :: ts => t.size + codes ts

/-- The number of codes for which no value was written yet (a value being written counts as not written). -/
def missing : List Part → Nat
  | [] => 0
  | p :: ps => codes p.todo + missing ps

/-- The length of everything written so far, and enough room for what is missing. -/
def enough (be : Bool) (ps : List Part) : Nat := (Part.bytes be [] ps).length + 16 * missing ps

/-- The value that results if every open container, the innermost one first, gets further values behind those it has got, and is
closed. -/
def closeAll : List Part → List (List Val) → Option Val
  | [p], [more] => match p.vals ++ more with
    | [v] => some v
    | _ => none
  | p :: q :: ps, more :: mores => match Part.value { p with vals := p.vals ++ more } with
    | some v => closeAll ({ q with vals := q.vals ++ [v] } :: ps) mores
    | none => none
  | _, _ => none

example : closeAll [⟨.struct, [.u16 1], [], []⟩, ⟨.array .variant, [.struct []], [], []⟩, ⟨.root, [], [], []⟩] [[.u16 2, .u16 3], [.u16 4], []]
    = some (.array .variant [.struct [], .struct [.u16 1, .u16 2, .u16 3], .u16 4]) := rfl

end Verif.Dbus.Finish
