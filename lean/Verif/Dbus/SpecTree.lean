import Verif.Dbus.Spec
/-! # Specification: positions, beginnings and summaries of types -/
namespace Verif.Dbus

/-- `Child u o p w`: `w` is member number `p` of the container `u`, and its signature begins `o` codes after the
beginning of the signature of `u`. -/
inductive Child : Ty → Nat → Nat → Ty → Prop
  | array (t : Ty) : Child (.array t) 1 0 t
  | maybe (t : Ty) : Child (.maybe t) 1 0 t
  | member (as : List Ty) (t : Ty) (bs : List Ty) :
      Child (.struct (as ++ t :: bs)) (1 + (Ty.texts as).length) as.length t
  | key (b : Basic) (v : Ty) : Child (.dict b v) 1 0 (.basic b)
  | value (b : Basic) (v : Ty) : Child (.dict b v) 2 1 v

/-- `Occ t i u`: the type `u` occurs in the type `t`, and its signature begins at index `i`. -/
inductive Occ : Ty → Nat → Ty → Prop
  | root (t : Ty) : Occ t 0 t
  | child {t u w : Ty} {i o p : Nat} : Occ t i u → Child u o p w → Occ t (i + o) w

/-- Structures and dict entries, the containers with a closing code. -/
def Ty.bracketed : Ty → Bool
  | .struct _ => true
  | .dict .. => true
  | _ => false

/-- All containers. -/
def Ty.container : Ty → Bool
  | .basic _ => false
  | .variant => false
  | _ => true

/-- Number of members of a container with a closing code. -/
def Ty.count : Ty → Nat
  | .struct ts => ts.length
  | .dict .. => 2
  | _ => 0

/-- `Begin p i c ts`: `p` is a beginning of signatures in which containers are still open. The innermost of them
was opened at index `i` with code `c`, and its members so far are `ts`. -/
inductive Begin : List UInt8 → Nat → Char → List Ty → Prop
  | first (c : Char) : c ∈ ['a', 'm', '(', '{'] → Begin [c.toUInt8] 0 c []
  | nest {p : List UInt8} {i : Nat} {c : Char} {ts : List Ty} (c' : Char) : Begin p i c ts →
      c' ∈ ['a', 'm', '(', '{'] → Begin (p ++ [c'.toUInt8]) p.length c' []
  | member {p : List UInt8} {i : Nat} {c : Char} {ts : List Ty} (t : Ty) : Begin p i c ts →
      c ∈ ['(', '{'] → Begin (p ++ t.bytes) i c (ts ++ [t])

/-- Types of dynamic size have one of the codes of strings, variants, arrays and maybes. -/
def Ty.dynamic (t : Ty) : Bool := t.text.any (· ∈ ['s', 'o', 'g', 'v', 'a', 'm'])

/-- Types with handles. -/
def Ty.handles (t : Ty) : Bool := t.text.any (· == 'h')

/-- Types with a maybe. -/
def Ty.maybes (t : Ty) : Bool := t.text.any (· == 'm')

/-- GVariant alignment exponents of the codes (GVariant Specification, 2.3.1 and 2.5). Strings, arrays and maybes
have none of their own, and a booleans is a single byte. -/
def gvarOfCode : Char → Nat
  | 'n' => 1 | 'q' => 1 | 'i' => 2 | 'u' => 2 | 'h' => 2 | 'x' => 3 | 't' => 3 | 'd' => 3 | 'v' => 3
  | _ => 0

/-- GVariant alignment exponent of a type: the maximum over its codes. -/
def Ty.gvarAlign (t : Ty) : Nat := (t.text.map gvarOfCode).foldr max 0

/-- D-Bus alignment exponent of a type (D-Bus Specification, "Summary of D-Bus marshalling"). Maybe types are not
part of D-Bus; the implementation gives them the alignment of arrays. -/
def Ty.dvarAlign : Ty → Nat
  | .basic .byte => 0
  | .basic .signature => 0
  | .basic .int16 => 1
  | .basic .uint16 => 1
  | .basic .int64 => 3
  | .basic .uint64 => 3
  | .basic .double => 3
  | .basic _ => 2
  | .variant => 0
  | .array _ => 2
  | .maybe _ => 2
  | .struct _ => 3
  | .dict .. => 3

/-- Whether the D-Bus encoding depends on its position although it is aligned: if something in it has a greater
alignment. Variants can hold anything. Structures have the greatest alignment. -/
def Ty.posDep : Ty → Bool
  | .basic _ => false
  | .variant => true
  | .array t => 2 < t.dvarAlign || t.posDep
  | .maybe t => 2 < t.dvarAlign || t.posDep
  | .struct _ => false
  | .dict .. => false

/-- Whether the members are those of a dict entry: a basic one and another one. -/
def Ty.entryLike : Ty → Bool
  | .struct [.basic _, _] => true
  | .dict .. => true
  | _ => false

end Verif.Dbus
