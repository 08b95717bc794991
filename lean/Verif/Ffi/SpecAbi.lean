import Verif.Ffi.ModelAbi
/-! # Specification of the fixed-ABI types

What an object of a nested type means, stated without the functions of the model: a number of so many bytes at the beginning of the object,
in the byte order that the type prescribes. -/
namespace Verif.Ffi.Abi

/-- The number within the type. -/
def scalar : Ty → Prim
  | .prim p | .endian _ p => p
  | .packed v | .integer v _ | .pointer v => scalar v

/-- The byte order of the number within the type: the one of the host, unless the type says otherwise. -/
def order (T : Target) : Ty → Host
  | .prim _ => T.host
  | .endian e _ => e
  | .packed v | .integer v _ | .pointer v => order T v

/-- `b` is byte `i` of a number `v` of `n` bytes in the given order. -/
def IsByte (e : Host) (n : Nat) (v : Nat) (i : Nat) (b : UInt8) : Prop :=
  match e with
  | .little => b.toNat = v / 256 ^ i % 256
  | .big => b.toNat = v / 256 ^ (n - 1 - i) % 256

/-- The object holds the number `v`: `v` fits, and the first bytes of the object are the bytes of `v`. -/
structure Holds (T : Target) (t : Ty) (o : Obj) (v : Nat) : Prop where
  fits : v < 256 ^ (scalar t).bytes T
  byte : ∀ i, i < (scalar t).bytes T → ∃ b, o[i]? = some (some b) ∧ IsByte (order T t) ((scalar t).bytes T) v i b

/-- Two's complement: the integer whose bits are `v`. -/
def signedValue (T : Target) (p : Prim) (v : Nat) : Int :=
  if p.signed = true ∧ 256 ^ p.bytes T / 2 ≤ v then (v : Int) - (256 ^ p.bytes T : Nat) else (v : Int)

/-- Every requested alignment is a possible one. -/
def Aligned : Ty → Prop
  | .prim _ | .endian _ _ => True
  | .packed v | .pointer v => Aligned v
  | .integer v a => 0 < a ∧ Aligned v

/-- The platform supports `Aligned` for its numbers: align.rs does not compile otherwise. -/
def Target.Ok (T : Target) : Prop := ∀ n ∈ [1, 2, 4, 8, 16], T.alignOf n ∈ [1, 2, 4, 8, 16, 32, 64, 128]

/-- `align_of` of a type, as the language defines it: arrays and slices have the alignment of their elements, references the one of an
address. -/
def alignOfType (T : Target) : Marker → Nat
  | .alignAs n => n
  | .num p => T.alignOf (p.bytes T)
  | .char => T.alignOf 4
  | .bool | .str => T.alignOf 1
  | .unit => 1
  | .array m _ | .slice m => alignOfType T m
  | .ref => T.alignOf T.ptr.bytes

/-- `Aligned` is implemented for the type: all of them except for `NonZero` integers and other numbers in `AlignAs`. -/
def Implemented : Marker → Prop
  | .alignAs n => n ∈ [1, 2, 4, 8, 16, 32, 64, 128]
  | .num p => p.nonzero = false
  | .array m _ | .slice m => Implemented m
  | _ => True

/-- Size, alignment and signedness by name, as the System V ABI supplements define them (AArch64: AAPCS64 table "Byte size and byte alignment
of fundamental data types"; Intel386 and AMD64: figure "Scalar Types"; the 128-bit integer of Intel386, which its supplement
does not define, as the compilers have it). -/
def publishedLp64 : List (String × Nat × Nat) := [
  ("I8", 1, 1), ("I16", 2, 2), ("I32", 4, 4), ("I64", 8, 8), ("I128", 16, 16), ("Isize", 8, 8),
  ("U8", 1, 1), ("U16", 2, 2), ("U32", 4, 4), ("U64", 8, 8), ("U128", 16, 16), ("Usize", 8, 8),
  ("F32", 4, 4), ("F64", 8, 8), ("Addr", 8, 8), ("Ptr", 8, 8)]
def publishedIntel386 : List (String × Nat × Nat) := [
  ("I8", 1, 1), ("I16", 2, 2), ("I32", 4, 4), ("I64", 8, 4), ("I128", 16, 16), ("Isize", 4, 4),
  ("U8", 1, 1), ("U16", 2, 2), ("U32", 4, 4), ("U64", 8, 4), ("U128", 16, 16), ("Usize", 4, 4),
  ("F32", 4, 4), ("F64", 8, 4), ("Addr", 4, 4), ("Ptr", 4, 4)]

/-- The alignments that the Rust compiler uses on the two kinds of platforms. -/
def lp64 : Target := ⟨.little, .w64, id⟩
def intel386 : Target := ⟨.little, .w32, fun n => if n = 8 then 4 else n⟩

end Verif.Ffi.Abi
