import Verif.Ffi.ModelEndian
import Verif.Bin.ModelLayout
/-! # Model of the fixed-ABI types

`lib/osi/src/ffi/{packed,integer,pointer,abi}.rs`, `lib/osi/src/align.rs`, and `lib/osi/src/ffi/endian.rs` on these types.

An object is its memory, a list of bytes; padding that was never written is `none`. A type is a term of `Ty`, so that the wrappers can be
nested to any depth. What the compiler fixes for a platform (byte order, width of pointers, alignment of primitive numbers) is a parameter,
`Target`. -/
namespace Verif.Ffi.Abi
open Verif.Bin (Lay Fields reprC place roundUp)

/-- `target_pointer_width`, pointer.rs 188-193: no other one is supported. -/
inductive PtrWidth | w16 | w32 | w64
deriving DecidableEq, Repr

def PtrWidth.bytes : PtrWidth → Nat
  | .w16 => 2
  | .w32 => 4
  | .w64 => 8

/-- The platform the code is compiled for: byte order, width of `usize`, and `align_of` of the primitive numbers by their size.
Simplification: numbers of the same size have the same alignment. -/
structure Target where
  host : Host
  ptr : PtrWidth
  alignOf : Nat → Nat

/-- Widths of the primitive integers; `size` is the one of `usize` and `isize`. -/
inductive Width | w8 | w16 | w32 | w64 | w128 | size
deriving DecidableEq, Repr

def Width.bytes (T : Target) : Width → Nat
  | .w8 => 1
  | .w16 => 2
  | .w32 => 4
  | .w64 => 8
  | .w128 => 16
  | .size => T.ptr.bytes

/-- Primitive numbers: integers, `NonZero` integers, and floating point numbers. -/
inductive Prim
  | int (w : Width) (signed nonzero : Bool)
  | float (double : Bool)
deriving DecidableEq, Repr

def Prim.bytes (T : Target) : Prim → Nat
  | .int w _ _ => w.bytes T
  | .float false => 4
  | .float true => 8

def Prim.signed : Prim → Bool
  | .int _ s _ => s
  | .float _ => true

def Prim.nonzero : Prim → Bool
  | .int _ _ z => z
  | .float _ => false

/-- The wrappers, nested. -/
inductive Ty
  /-- A primitive number. -/
  | prim (p : Prim)
  /-- `BigEndian`, `LittleEndian`, endian.rs 77 and 88; `e` is the byte order. -/
  | endian (e : Host) (p : Prim)
  /-- `Packed`, packed.rs 12-14. -/
  | packed (v : Ty)
  /-- `Integer`, integer.rs 30-33; `a` is the alignment of `Alignment::Align`. -/
  | integer (v : Ty) (a : Nat)
  /-- `Pointer`, pointer.rs 138-141, without the type of its target. -/
  | pointer (v : Ty)
deriving DecidableEq

/-- `repr(C, packed)`, packed.rs 13: the alignment is 1. -/
def packedLay (l : Lay) : Lay := ⟨l.size, 1⟩

/-- The fields of `Integer`, integer.rs 30-33, for a value with the given layout. -/
def integerFields (l : Lay) (a : Nat) : Fields := [("value", packedLay l), ("alignment", ⟨0, a⟩)]

/-- `size_of` and `align_of`. `BigEndian`, `LittleEndian` and `Pointer` are `repr(transparent)`: endian.rs 76, 87, pointer.rs 137. -/
def lay (T : Target) : Ty → Lay
  | .prim p => ⟨p.bytes T, T.alignOf (p.bytes T)⟩
  | .endian _ p => ⟨p.bytes T, T.alignOf (p.bytes T)⟩
  | .packed v => packedLay (lay T v)
  | .integer v a => reprC 1 (integerFields (lay T v) a)
  | .pointer v => lay T v

abbrev size (T : Target) (t : Ty) : Nat := (lay T t).size

/-- Memory of an object. -/
abbrev Obj := List (Option UInt8)

/-- Memory that is a number of the primitive type: initialised, and not zero if the type is `NonZero`. -/
def validPrim (T : Target) (p : Prim) (o : Obj) : Bool :=
  o.length == p.bytes T && o.all Option.isSome && (!p.nonzero || o.any (fun b => b != some 0))

/-- Memory that is a value of the type; everything else is undefined behaviour. -/
def valid (T : Target) : Ty → Obj → Bool
  | .prim p, o => validPrim T p o
  | .endian _ p, o => validPrim T p o
  | .packed v, o => valid T v o
  | .integer v a, o => o.length == size T (.integer v a) && valid T v (o.take (size T v))
  | .pointer v, o => valid T v o

/-! ## `Packed`, `Integer`, `Pointer` as containers -/

/-- `Integer::new`, integer.rs 41-46 (with `Packed::new`, packed.rs 20-22): what is not part of the value is padding. -/
def Integer.new (T : Target) (v : Ty) (a : Nat) (val : Obj) : Obj := val ++ List.replicate (size T (.integer v a) - val.length) none

/-- `Integer::get`, integer.rs 103-105 (`Packed::get`, packed.rs 84-86), and `into_inner`, integer.rs 66-78 (packed.rs 42-53): the bytes of
the value, which lies at the beginning. -/
def Integer.get (T : Target) (v : Ty) (o : Obj) : Obj := o.take (size T v)

/-- `Integer::set`, integer.rs 86-88 (packed.rs 58-60). -/
def Integer.set (o val : Obj) : Obj := val ++ o.drop val.length

/-- `Integer::replace`, integer.rs 92-94 (packed.rs 64-75): the new object and the old value. -/
def Integer.replace (T : Target) (v : Ty) (o val : Obj) : Obj × Obj := (Integer.set o val, Integer.get T v o)

/-! ## `NativeEndian` -/

/-- Types that implement `NativeEndian`: integers, endian.rs 143-166; wrapped integers, 440-546; `Integer` and `Pointer`, if the type within
does, integer.rs 311-318, pointer.rs 577-584. -/
def hasNative : Ty → Bool
  | .prim (.int ..) => true
  | .endian _ (.int ..) => true
  | .integer v _ => hasNative v
  | .pointer v => hasNative v
  | _ => false

/-- The type `Raw` of `NativeEndian<Raw>`. -/
def native : Ty → Prim
  | .prim p => p
  | .endian _ p => p
  | .packed v => native v
  | .integer v _ => native v
  | .pointer v => native v

/-- `NEEDS_SWAP`: endian.rs 33, 440-546, integer.rs 317, pointer.rs 583. -/
def needsSwap (T : Target) : Ty → Bool
  | .prim _ => NEEDS_SWAP T.host .plain
  | .endian .big _ => NEEDS_SWAP T.host .bigEndian
  | .endian .little _ => NEEDS_SWAP T.host .littleEndian
  | .packed _ => false
  | .integer v _ => needsSwap T v
  | .pointer v => needsSwap T v

/-- `from_raw`, endian.rs 98-102. `none` is undefined behaviour. -/
def fromRaw (T : Target) (t : Ty) (raw : List UInt8) : Option Obj :=
  let o := transmute_copy_uninit (raw.map some) (size T t)
  if valid T t o then some o else none

/-- `to_raw`, endian.rs 108-112. -/
def toRaw (T : Target) (t : Ty) (o : Obj) : Option (List UInt8) :=
  let r := transmute_copy_uninit o ((native t).bytes T)
  if validPrim T (native t) r then assume_init r else none

/-- `from_native`, endian.rs 118-126; `num`, abi.rs 61-63. -/
def fromNative (T : Target) (t : Ty) (raw : List UInt8) : Option Obj :=
  if needsSwap T t then do fromRaw T t (← bswap_copy T.host raw) else fromRaw T t raw

/-- `to_native`, endian.rs 133-141. -/
def toNative (T : Target) (t : Ty) (o : Obj) : Option (List UInt8) :=
  if needsSwap T t then do bswap_copy T.host (← toRaw T t o) else toRaw T t o

/-! ## Comparison, hashing, display and default values -/

/-- The integer that lies in memory. -/
def readPrim (T : Target) (p : Prim) (m : List UInt8) : Int := IntTy.read ⟨p.bytes T, p.signed⟩ (load T.host m)

/-- The integer that `==`, `cmp`, `hash` and `Display` hand over to the primitive integer: endian.rs 238-301, 373-436 (through `to_native`),
packed.rs 116-173 and integer.rs 212-275 (through `get`), pointer.rs 488-551 (through the address). `none` for reading uninitialised memory. -/
def viewed (T : Target) : Ty → Obj → Option Int
  | .prim p, o => (assume_init o).map (readPrim T p)
  | .endian e p, o => (toNative T (.endian e p) o).map (readPrim T p)
  | .packed v, o => viewed T v o
  | .integer v _, o => viewed T v (Integer.get T v o)
  | .pointer v, o => viewed T v o

/-- `==`: endian.rs 282-290, 417-425, packed.rs 156-163, integer.rs 256-264, pointer.rs 532-540. -/
def eq (T : Target) (t : Ty) (a b : Obj) : Option Bool := do
  let x ← viewed T t a
  let y ← viewed T t b
  pure (decide (x = y))

/-- `cmp` and `partial_cmp`: endian.rs 271-279, 293-301, 406-414, 428-436, packed.rs 146-173, integer.rs 245-275, pointer.rs 521-551. -/
def cmp (T : Target) (t : Ty) (a b : Obj) : Option Ordering := do
  let x ← viewed T t a
  let y ← viewed T t b
  pure (compare x y)

/-- What `hash` hands over to the hasher: the width and the bits of the integer. endian.rs 257-268, 392-403, packed.rs 133-143,
integer.rs 231-242, pointer.rs 507-518. -/
def hash (T : Target) (t : Ty) (o : Obj) : Option (Nat × Int) := (viewed T t o).map (fun x => ((native t).bytes T, x))

/-- `Default`: endian.rs 227-235, 362-370, packed.rs 12 (derived), integer.rs 201-209. `NonZero` integers and pointers have none. -/
def defaultOf (T : Target) : Ty → Option Obj
  | .prim p => if p.nonzero then none else some ((store T.host (p.bytes T) 0).map some)
  | .endian e p => if p.nonzero then none else fromNative T (.endian e p) (store T.host (p.bytes T) 0)
  | .packed v => defaultOf T v
  | .integer v a => (defaultOf T v).map (Integer.new T v a)
  | .pointer _ => none

/-- `Integer::take`, integer.rs 111-113 (packed.rs 92-94): the new object and the old value. -/
def Integer.takeOut (T : Target) (v : Ty) (o : Obj) : Option (Obj × Obj) := (defaultOf T v).map (Integer.replace T v o)

/-! ## `NativeAddress` -/

/-- A call that panics, has undefined behaviour, or does not compile since the trait is not implemented. -/
inductive Out (α : Type)
  | ok (a : α)
  | panic
  | ub
  | missing
deriving DecidableEq, Repr

def Out.map {α β : Type} (f : α → β) : Out α → Out β
  | .ok a => .ok (f a)
  | .panic => .panic
  | .ub => .ub
  | .missing => .missing

/-- Integers that implement `NativeAddress`, pointer.rs 195-211: `usize` and the unsigned integer of its width, and their `NonZero`
variants. -/
def addressPrim (T : Target) : Prim → Bool
  | .int .size false _ => true
  | .int .w16 false _ => T.ptr == .w16
  | .int .w32 false _ => T.ptr == .w32
  | .int .w64 false _ => T.ptr == .w64
  | _ => false

/-- Types that implement `NativeAddress`: integer.rs 287-305, pointer.rs 554-571. -/
def hasAddress (T : Target) : Ty → Bool
  | .prim p => addressPrim T p
  | .integer v _ => hasAddress T v
  | .pointer v => hasAddress T v
  | _ => false

/-- `from_usize_unchecked`: pointer.rs 148-152, 168-174, 560-565, integer.rs 294-299. -/
def fromUsizeUnchecked (T : Target) : Ty → Nat → Out Obj
  | .prim p, u =>
    if addressPrim T p then
      if T.ptr.bytes ≤ p.bytes T then
        let o := (store T.host (p.bytes T) (u % 256 ^ p.bytes T)).map some
        if validPrim T p o then .ok o else .ub
      else .panic
    else .missing
  | .integer v a, u => (fromUsizeUnchecked T v u).map (Integer.new T v a)
  | .pointer v, u => fromUsizeUnchecked T v u
  | _, _ => .missing

/-- `from_usize`, pointer.rs 33-43; `TryFrom` of an address or a pointer, 587-650, has an error instead of `none`. -/
def fromUsize (T : Target) (t : Ty) (u : Nat) : Out (Option Obj) :=
  if u = 0 then .ok none else (fromUsizeUnchecked T t u).map some

/-- `to_usize`, pointer.rs 155-158, 177-180, 568-570, integer.rs 302-304; also `into_usize`, `as_ptr` and `as_mut_ptr`, pointer.rs 53-95. -/
def toUsize (T : Target) : Ty → Obj → Out Nat
  | .prim p, o =>
    if addressPrim T p then
      if p.bytes T ≤ T.ptr.bytes then
        match assume_init o with
        | some m => .ok (load T.host m % 256 ^ T.ptr.bytes)
        | none => .ub
      else .panic
    else .missing
  | .integer v _, o => toUsize T v (Integer.get T v o)
  | .pointer v, o => toUsize T v o
  | _, _ => .missing

/-- `dangling`, pointer.rs 66-73, for a target with the given alignment. -/
def dangling (T : Target) (t : Ty) (align : Nat) : Out Obj := fromUsizeUnchecked T t align

/-! ## Alignment markers -/

/-- Types that implement `Aligned`, align.rs 154-187. Simplification: `char` and `bool` have the alignment of the integer of their size. -/
inductive Marker
  | alignAs (n : Nat)
  | num (p : Prim)
  | char
  | bool
  | unit
  | str
  | array (m : Marker) (n : Nat)
  | slice (m : Marker)
  /-- `&T`, `&mut T`, `*const T`, `*mut T`, for any `T`. -/
  | ref

/-- `AlignAs<n>`, align.rs 121-123, is transparent to `Align1`, …, `Align128`, align.rs 43-95; for other numbers there is no
implementation (154-161). -/
def alignAsLay : Nat → Option Lay
  | 1 => some (reprC 1 [])
  | 2 => some (reprC 2 [])
  | 4 => some (reprC 4 [])
  | 8 => some (reprC 8 [])
  | 16 => some (reprC 16 [])
  | 32 => some (reprC 32 [])
  | 64 => some (reprC 64 [])
  | 128 => some (reprC 128 [])
  | _ => none

/-- The layout of `<M as Aligned>::Align`, align.rs 154-187; `AlignOf<M>`, align.rs 128-130, is transparent to it. -/
def Marker.align (T : Target) : Marker → Option Lay
  | .alignAs n => alignAsLay n
  | .num (.int w _ false) => alignAsLay (T.alignOf (w.bytes T))
  | .num (.float d) => alignAsLay (T.alignOf ((Prim.float d).bytes T))
  | .num (.int _ _ true) => none
  | .char => alignAsLay (T.alignOf 4)
  | .bool => alignAsLay (T.alignOf 1)
  | .unit => alignAsLay 1
  | .str => alignAsLay (T.alignOf 1)
  | .array m _ => m.align T
  | .slice m => m.align T
  | .ref => alignAsLay (T.alignOf T.ptr.bytes)

/-! ## The ABIs -/

/-- `Le`, abi.rs 40-43. -/
def Le (p : Prim) (a : Nat) : Ty := .integer (.endian .little p) a

def i (w : Width) : Prim := .int w true false
def u (w : Width) : Prim := .int w false false
def nz (w : Width) : Prim := .int w false true

/-- `native`, abi.rs 77-95. `NonNull` has the layout of `NonZeroUsize`. -/
def nativeAbi : List (String × Ty) := [
  ("I8", .prim (i .w8)), ("I16", .prim (i .w16)), ("I32", .prim (i .w32)), ("I64", .prim (i .w64)), ("I128", .prim (i .w128)),
  ("Isize", .prim (i .size)),
  ("U8", .prim (u .w8)), ("U16", .prim (u .w16)), ("U32", .prim (u .w32)), ("U64", .prim (u .w64)), ("U128", .prim (u .w128)),
  ("Usize", .prim (u .size)),
  ("F32", .prim (.float false)), ("F64", .prim (.float true)),
  ("Addr", .prim (nz .size)), ("Ptr", .prim (nz .size))]

/-- `aarch64_sysv`, abi.rs 107-125. -/
def aarch64_sysv : List (String × Ty) := [
  ("I8", Le (i .w8) 1), ("I16", Le (i .w16) 2), ("I32", Le (i .w32) 4), ("I64", Le (i .w64) 8), ("I128", Le (i .w128) 16),
  ("Isize", Le (i .w64) 8),
  ("U8", Le (u .w8) 1), ("U16", Le (u .w16) 2), ("U32", Le (u .w32) 4), ("U64", Le (u .w64) 8), ("U128", Le (u .w128) 16),
  ("Usize", Le (u .w64) 8),
  ("F32", Le (.float false) 4), ("F64", Le (.float true) 8),
  ("Addr", Le (nz .w64) 8), ("Ptr", .pointer (Le (nz .w64) 8))]

/-- `x86_sysv`, abi.rs 137-155. -/
def x86_sysv : List (String × Ty) := [
  ("I8", Le (i .w8) 1), ("I16", Le (i .w16) 2), ("I32", Le (i .w32) 4), ("I64", Le (i .w64) 4), ("I128", Le (i .w128) 16),
  ("Isize", Le (i .w32) 4),
  ("U8", Le (u .w8) 1), ("U16", Le (u .w16) 2), ("U32", Le (u .w32) 4), ("U64", Le (u .w64) 4), ("U128", Le (u .w128) 16),
  ("Usize", Le (u .w32) 4),
  ("F32", Le (.float false) 4), ("F64", Le (.float true) 4),
  ("Addr", Le (nz .w32) 4), ("Ptr", .pointer (Le (nz .w32) 4))]

/-- `x86_64_sysv`, abi.rs 167-185. -/
def x86_64_sysv : List (String × Ty) := [
  ("I8", Le (i .w8) 1), ("I16", Le (i .w16) 2), ("I32", Le (i .w32) 4), ("I64", Le (i .w64) 8), ("I128", Le (i .w128) 16),
  ("Isize", Le (i .w64) 8),
  ("U8", Le (u .w8) 1), ("U16", Le (u .w16) 2), ("U32", Le (u .w32) 4), ("U64", Le (u .w64) 8), ("U128", Le (u .w128) 16),
  ("Usize", Le (u .w64) 8),
  ("F32", Le (.float false) 4), ("F64", Le (.float true) 8),
  ("Addr", Le (nz .w64) 8), ("Ptr", .pointer (Le (nz .w64) 8))]

end Verif.Ffi.Abi
