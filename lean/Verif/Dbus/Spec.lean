/-! # Specification: single complete types of the D-Bus and GVariant type systems

D-Bus Specification, "Type System" and "Summary of Types"; GVariant adds the maybe type `m`. A dict entry has one
basic key and one value. Unlike the message format, a dict entry may be a type of its own, and there is no limit
on the nesting depth. -/
namespace Verif.Dbus

/-- Basic types. -/
inductive Basic
  | byte | uint16 | int16 | uint32 | int32 | uint64 | int64 | double | boolean | string | objectPath
  | signature | unixFd
deriving DecidableEq, Repr

/-- Type codes of the basic types. -/
def Basic.code : Basic → Char
  | .byte => 'y' | .uint16 => 'q' | .int16 => 'n' | .uint32 => 'u' | .int32 => 'i' | .uint64 => 't' | .int64 => 'x'
  | .double => 'd' | .boolean => 'b' | .string => 's' | .objectPath => 'o' | .signature => 'g' | .unixFd => 'h'

/-- Single complete types. -/
inductive Ty
  | basic (b : Basic)
  | variant
  | array (t : Ty)
  | maybe (t : Ty)
  | struct (ts : List Ty)
  | dict (key : Basic) (value : Ty)
deriving Repr

mutual
/-- The signature string of a type. -/
def Ty.text : Ty → List Char
  | .basic b => [b.code]
  | .variant => ['v']
  | .array t => 'a' :: t.text
  | .maybe t => 'm' :: t.text
  | .struct ts => '(' :: (Ty.texts ts ++ [')'])
  | .dict k v => '{' :: k.code :: (v.text ++ ['}'])
/-- The signature strings of several types, one after the other. -/
def Ty.texts : List Ty → List Char
  | [] => []
  | t :: ts => t.text ++ Ty.texts ts
end

/-- The bytes of the signature string. -/
def Ty.bytes (t : Ty) : List UInt8 := t.text.map Char.toUInt8

/-- The number of codes of the signature string. -/
def Ty.size (t : Ty) : Nat := t.text.length

#guard String.ofList (Ty.array (.dict .string (.struct [.variant, .maybe (.basic .unixFd)]))).text = "a{s(vmh)}"

end Verif.Dbus
