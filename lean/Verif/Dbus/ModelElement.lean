/-! # Model of D-Bus elements and flag sets, `lib/tmp/src/fmt/dbus/element.rs`

A `FlagSet` is the `u32` it wraps. `from_id` is a transmute in the code: an invalid identifier is undefined
behaviour there and `none` here. -/
namespace Verif.Dbus

/-- `Flag`, element.rs 41. -/
abbrev Flag := BitVec 32

/-- `FLAG_ELEMENT_MASK`, element.rs 48 (the shift is 0, line 49). -/
def FLAG_ELEMENT_MASK : Flag := 0b01111111#32
/-- `FLAG_NODE_SHIFT`, element.rs 54. -/
def FLAG_NODE_SHIFT : Nat := 7
/-- `FLAG_NODE_MASK`, element.rs 53. -/
def FLAG_NODE_MASK : Flag := 0b11#32 <<< FLAG_NODE_SHIFT
/-- `FLAG_DVAR_ALIGNMENT_SHIFT`, element.rs 58. -/
def FLAG_DVAR_ALIGNMENT_SHIFT : Nat := 9
/-- `FLAG_DVAR_ALIGNMENT_MASK`, element.rs 57. -/
def FLAG_DVAR_ALIGNMENT_MASK : Flag := 0b11#32 <<< FLAG_DVAR_ALIGNMENT_SHIFT
/-- `FLAG_GVAR_ALIGNMENT_SHIFT`, element.rs 62. -/
def FLAG_GVAR_ALIGNMENT_SHIFT : Nat := 11
/-- `FLAG_GVAR_ALIGNMENT_MASK`, element.rs 61. -/
def FLAG_GVAR_ALIGNMENT_MASK : Flag := 0b11#32 <<< FLAG_GVAR_ALIGNMENT_SHIFT
/-- element.rs 64. -/
def FLAG_PREFIX : Flag := 1#32 <<< 13
/-- element.rs 66. -/
def FLAG_OPEN : Flag := 1#32 <<< 14
/-- element.rs 68. -/
def FLAG_CLOSE : Flag := 1#32 <<< 15
/-- element.rs 71. -/
def FLAG_BASIC : Flag := 1#32 <<< 16
/-- element.rs 74. -/
def FLAG_DYNAMIC : Flag := 1#32 <<< 17
/-- element.rs 77. -/
def FLAG_VARIANT : Flag := 1#32 <<< 18
/-- element.rs 80. -/
def FLAG_HANDLE : Flag := 1#32 <<< 19
/-- element.rs 82. -/
def FLAG_DICT : Flag := 1#32 <<< 20
/-- element.rs 84. -/
def FLAG_DVAR_UNSUPPORTED : Flag := 1#32 <<< 21
/-- element.rs 88. -/
def FLAG_DVAR_MISALIGNED : Flag := 1#32 <<< 22

/-- `Element`, element.rs 121-145. -/
inductive Element
  | u8 | u16 | i16 | u32 | i32 | u64 | i64 | f64 | bool | string | object | signature | handle
  | variant | array | maybe | structOpen | structClose | dictOpen | dictClose
deriving DecidableEq, Repr

/-- All elements in the order of their declaration. -/
def Element.all : List Element :=
  [.u8, .u16, .i16, .u32, .i32, .u64, .i64, .f64, .bool, .string, .object, .signature, .handle,
   .variant, .array, .maybe, .structOpen, .structClose, .dictOpen, .dictClose]

/-- `Element::id`, element.rs 435-437: the discriminants of the enum, starting from 1 (line 122). -/
def Element.id : Element → Nat
  | .u8 => 1 | .u16 => 2 | .i16 => 3 | .u32 => 4 | .i32 => 5 | .u64 => 6 | .i64 => 7 | .f64 => 8 | .bool => 9
  | .string => 10 | .object => 11 | .signature => 12 | .handle => 13 | .variant => 14 | .array => 15
  | .maybe => 16 | .structOpen => 17 | .structClose => 18 | .dictOpen => 19 | .dictClose => 20

/-- `Element::from_id`, element.rs 398-403. `none` is undefined behaviour. -/
def Element.fromId (id : Nat) : Option Element := Element.all.find? fun e => e.id == id

/-- `Element::from_code`, element.rs 407-431. -/
def Element.fromCode (c : UInt8) : Option Element :=
  if c = 'y'.toUInt8 then some .u8 else
  if c = 'q'.toUInt8 then some .u16 else
  if c = 'n'.toUInt8 then some .i16 else
  if c = 'u'.toUInt8 then some .u32 else
  if c = 'i'.toUInt8 then some .i32 else
  if c = 't'.toUInt8 then some .u64 else
  if c = 'x'.toUInt8 then some .i64 else
  if c = 'd'.toUInt8 then some .f64 else
  if c = 'b'.toUInt8 then some .bool else
  if c = 's'.toUInt8 then some .string else
  if c = 'o'.toUInt8 then some .object else
  if c = 'g'.toUInt8 then some .signature else
  if c = 'h'.toUInt8 then some .handle else
  if c = 'v'.toUInt8 then some .variant else
  if c = 'a'.toUInt8 then some .array else
  if c = 'm'.toUInt8 then some .maybe else
  if c = '('.toUInt8 then some .structOpen else
  if c = ')'.toUInt8 then some .structClose else
  if c = '{'.toUInt8 then some .dictOpen else
  if c = '}'.toUInt8 then some .dictClose else none

/-- The bits a `FlagSet` is composed of, element.rs 250-252. -/
def elMask (e : Element) : Flag := BitVec.ofNat 32 e.id
def dvMask (a : Nat) : Flag := BitVec.ofNat 32 a <<< FLAG_DVAR_ALIGNMENT_SHIFT
def gvMask (a : Nat) : Flag := BitVec.ofNat 32 a <<< FLAG_GVAR_ALIGNMENT_SHIFT

/-- `FlagSet::with`, element.rs 244-270, without its assertions. -/
def FlagSet_with (e : Element) (dvar gvar : Nat) (flags : Flag) : Flag :=
  flags ||| elMask e ||| dvMask dvar ||| gvMask gvar

/-- The assertions of `FlagSet::with`, element.rs 254-262. They are evaluated at compile time. -/
def FlagSet_with_asserts (e : Element) (dvar gvar : Nat) (flags : Flag) : Bool :=
  (flags &&& FLAG_ELEMENT_MASK == 0#32) && (flags &&& FLAG_DVAR_ALIGNMENT_MASK == 0#32)
  && (flags &&& FLAG_GVAR_ALIGNMENT_MASK == 0#32)
  && ((elMask e).toNat % 256 == e.id)
  && ((dvMask dvar >>> FLAG_DVAR_ALIGNMENT_SHIFT).toNat % 256 == dvar)
  && ((gvMask gvar >>> FLAG_GVAR_ALIGNMENT_SHIFT).toNat % 256 == gvar)
  && (elMask e &&& ~~~FLAG_ELEMENT_MASK == 0#32) && (dvMask dvar &&& ~~~FLAG_DVAR_ALIGNMENT_MASK == 0#32)
  && (gvMask gvar &&& ~~~FLAG_GVAR_ALIGNMENT_MASK == 0#32)

/-- One row of the table: the arguments of `element()`, element.rs 160-177. -/
structure Row where
  code : UInt8
  element : Element
  pair : Option Element
  dvarAlign : Nat
  dvarSize : Nat
  gvarAlign : Nat
  gvarSize : Nat
  flags : Flag
deriving DecidableEq, Repr

/-- `ELEMENTS`, element.rs 179-240. -/
def ELEMENTS : List Row := [
  ⟨'y'.toUInt8, .u8, none, 0, 1, 0, 1, FLAG_PREFIX ||| FLAG_BASIC⟩,
  ⟨'q'.toUInt8, .u16, none, 1, 2, 1, 2, FLAG_PREFIX ||| FLAG_BASIC⟩,
  ⟨'n'.toUInt8, .i16, none, 1, 2, 1, 2, FLAG_PREFIX ||| FLAG_BASIC⟩,
  ⟨'u'.toUInt8, .u32, none, 2, 4, 2, 4, FLAG_PREFIX ||| FLAG_BASIC⟩,
  ⟨'i'.toUInt8, .i32, none, 2, 4, 2, 4, FLAG_PREFIX ||| FLAG_BASIC⟩,
  ⟨'t'.toUInt8, .u64, none, 3, 8, 3, 8, FLAG_PREFIX ||| FLAG_BASIC⟩,
  ⟨'x'.toUInt8, .i64, none, 3, 8, 3, 8, FLAG_PREFIX ||| FLAG_BASIC⟩,
  ⟨'d'.toUInt8, .f64, none, 3, 8, 3, 8, FLAG_PREFIX ||| FLAG_BASIC⟩,
  ⟨'b'.toUInt8, .bool, none, 2, 4, 0, 1, FLAG_PREFIX ||| FLAG_BASIC⟩,
  ⟨'s'.toUInt8, .string, none, 2, 0, 0, 0, FLAG_PREFIX ||| FLAG_BASIC ||| FLAG_DYNAMIC⟩,
  ⟨'o'.toUInt8, .object, none, 2, 0, 0, 0, FLAG_PREFIX ||| FLAG_BASIC ||| FLAG_DYNAMIC⟩,
  ⟨'g'.toUInt8, .signature, none, 0, 0, 0, 0, FLAG_PREFIX ||| FLAG_BASIC ||| FLAG_DYNAMIC⟩,
  ⟨'h'.toUInt8, .handle, none, 2, 4, 2, 4, FLAG_PREFIX ||| FLAG_BASIC ||| FLAG_HANDLE⟩,
  ⟨'v'.toUInt8, .variant, none, 0, 0, 3, 0,
    FLAG_PREFIX ||| FLAG_DYNAMIC ||| FLAG_VARIANT ||| FLAG_DVAR_MISALIGNED⟩,
  ⟨'a'.toUInt8, .array, none, 2, 0, 0, 0, FLAG_PREFIX ||| FLAG_DYNAMIC ||| FLAG_OPEN⟩,
  ⟨'m'.toUInt8, .maybe, none, 2, 0, 0, 0,
    FLAG_PREFIX ||| FLAG_DYNAMIC ||| FLAG_OPEN ||| FLAG_DVAR_UNSUPPORTED⟩,
  ⟨'('.toUInt8, .structOpen, some .structClose, 3, 0, 0, 0, FLAG_PREFIX ||| FLAG_OPEN ||| FLAG_DICT⟩,
  ⟨')'.toUInt8, .structClose, some .structOpen, 0, 0, 0, 0, FLAG_CLOSE⟩,
  ⟨'{'.toUInt8, .dictOpen, some .dictClose, 3, 0, 0, 0, FLAG_PREFIX ||| FLAG_OPEN ||| FLAG_DICT⟩,
  ⟨'}'.toUInt8, .dictClose, some .dictOpen, 0, 0, 0, 0, FLAG_CLOSE⟩]

theorem Element.id_lt (e : Element) : e.id - 1 < ELEMENTS.length := by cases e <;> decide

namespace Element

/-- `Element::meta`, element.rs 443-445. The index is in range for every element. -/
def row (e : Element) : Row := ELEMENTS[e.id - 1]'e.id_lt

/-- `Element::code`, element.rs 448-450. -/
def code (e : Element) : UInt8 := e.row.code

/-- `Element::char`, element.rs 452-455. -/
def char (e : Element) : Char := Char.ofNat e.code.toNat

/-- `Element::str`, element.rs 457-467: the byte itself. The code takes it as UTF-8 without a check. -/
def str (e : Element) : List UInt8 := [e.code]

/-- `Element::pair`, element.rs 470-472. -/
def pair (e : Element) : Option Element := e.row.pair

/-- `Element::flags`, element.rs 475-477, as built by `element()`, line 173. -/
def flags (e : Element) : Flag := FlagSet_with e.row.element e.row.dvarAlign e.row.gvarAlign e.row.flags

/-- `Element::dvar_size`, element.rs 500-502. -/
def dvarSize (e : Element) : Nat := e.row.dvarSize

/-- `Element::gvar_size`, element.rs 505-507. -/
def gvarSize (e : Element) : Nat := e.row.gvarSize

end Element

namespace FlagSet

/-- `FlagSet::all`, element.rs 289-291. -/
def all (f flags : Flag) : Bool := (f &&& flags) == flags

/-- `FlagSet::any`, element.rs 299-301. -/
def any (f flags : Flag) : Bool := (f &&& flags) != 0#32

/-- `FlagSet::set`, element.rs 315-322. -/
def set (f flags : Flag) : Flag := f ||| (flags &&& ~~~FLAG_ELEMENT_MASK)

/-- `FlagSet::clear`, element.rs 328-335. -/
def clear (f flags : Flag) : Flag := f &&& ~~~(flags &&& ~~~FLAG_ELEMENT_MASK)

/-- `FlagSet::element`, element.rs 338-343. `none` is undefined behaviour. -/
def element (f : Flag) : Option Element := Element.fromId ((f &&& FLAG_ELEMENT_MASK).toNat % 256)

/-- `FlagSet::node`, element.rs 346-348. -/
def node (f : Flag) : Nat := ((f &&& FLAG_NODE_MASK) >>> FLAG_NODE_SHIFT).toNat % 256

/-- `FlagSet::set_node`, element.rs 351-363. `none` is a failed assertion. -/
def set_node (f : Flag) (v : Nat) : Option Flag :=
  let mask : Flag := BitVec.ofNat 32 v <<< FLAG_NODE_SHIFT
  if (mask >>> FLAG_NODE_SHIFT).toNat % 256 ≠ v then none else
  if mask &&& ~~~FLAG_NODE_MASK ≠ 0#32 then none else
  some ((f &&& ~~~FLAG_NODE_MASK) ||| mask)

/-- `FlagSet::dvar_alignment_exp`, element.rs 366-368. -/
def dvarExp (f : Flag) : Nat := ((f &&& FLAG_DVAR_ALIGNMENT_MASK) >>> FLAG_DVAR_ALIGNMENT_SHIFT).toNat % 256

/-- `FlagSet::gvar_alignment_exp`, element.rs 371-373. -/
def gvarExp (f : Flag) : Nat := ((f &&& FLAG_GVAR_ALIGNMENT_MASK) >>> FLAG_GVAR_ALIGNMENT_SHIFT).toNat % 256

/-- `FlagSet::set_gvar_alignment_exp`, element.rs 376-388. `none` is a failed assertion. -/
def set_gvarExp (f : Flag) (v : Nat) : Option Flag :=
  let mask : Flag := BitVec.ofNat 32 v <<< FLAG_GVAR_ALIGNMENT_SHIFT
  if (mask >>> FLAG_GVAR_ALIGNMENT_SHIFT).toNat % 256 ≠ v then none else
  if mask &&& ~~~FLAG_GVAR_ALIGNMENT_MASK ≠ 0#32 then none else
  some ((f &&& ~~~FLAG_GVAR_ALIGNMENT_MASK) ||| mask)

end FlagSet

/-- `Element::dvar_alignment_exp`, element.rs 490-492. -/
def Element.dvarExp (e : Element) : Nat := FlagSet.dvarExp e.flags

/-- `Element::gvar_alignment_exp`, element.rs 495-497. -/
def Element.gvarExp (e : Element) : Nat := FlagSet.gvarExp e.flags

/-- `Element::all`, element.rs 480-482. -/
def Element.hasAll (e : Element) (flags : Flag) : Bool := FlagSet.all e.flags flags

/-- `Element::any`, element.rs 485-487. -/
def Element.hasAny (e : Element) (flags : Flag) : Bool := FlagSet.any e.flags flags

#guard Element.all.length = 20
#guard Element.all.all fun e => Element.fromCode e.code == some e

end Verif.Dbus
