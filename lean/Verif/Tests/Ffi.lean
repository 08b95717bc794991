import Verif.Ffi.ModelMem
import Verif.Ffi.ModelPtr
import Verif.Cfg.ModelCfg
import Verif.Text.ModelUncaught
import Verif.Wrap.ModelCmp

/-! The tests of osi/src/ptr.rs, osi/src/mem.rs, osi/src/meta.rs, osi/src/ffi/endian.rs, osi/src/cfg.rs, osi/src/error.rs, osi/src/mown.rs and
osi/src/cmp.rs, run on the models. -/
namespace Verif.Tests

section Ptr
open Ffi

/-- The steps of `basic_nonnull4`, ptr.rs, with what `ptr()`, `meta()`, `get0()` and `get1()` give after every one. -/
def nn4 (calls : List (NonNull4 64 → Option (NonNull4 64))) (p : NonNull4 64) :
    List (BitVec 64 × BitVec 64 × Option Bool × Option Bool) :=
  let here := (p.getPtr, p.getMeta, p.get0, p.get1)
  match calls with
  | [] => [here]
  | f :: l => here :: match f p with
    | some p => nn4 l p
    | none => []

-- `basic_nonnull4`, ptr.rs
#guard (NonNull4.new 0x1000#64).isSome && (NonNull4.new 0x2004#64).isSome
#guard [1, 2, 3].all fun d => (NonNull4.new (0x1000#64 ||| BitVec.ofNat 64 d)).isNone
#guard (NonNull4.new (0x1000#64 ||| 4)).isSome
#guard ((NonNull4.new 0x1000#64).map (nn4 [(·.set0 true), (·.set1 true), (·.set0 false), (·.set1 false), (some <| ·.setPtr 0x2004),
    (some <| ·.setMeta 3), (some <| ·.setPtr 0x1000), (some <| ·.setMeta 2), (some <| ·.setPtr 0x2004)]))
  = some [(0x1000, 0, some false, some false), (0x1000, 1, some true, some false), (0x1000, 3, some true, some true),
    (0x1000, 2, some false, some true), (0x1000, 0, some false, some false), (0x2004, 0, some false, some false),
    (0x2004, 3, some true, some true), (0x1000, 3, some true, some true), (0x1000, 2, some false, some true),
    (0x2004, 2, some false, some true)]

-- `basic_field`, meta.rs (`b` is at offset 2)
#guard field_of_ptr 2#64 0x1000 = 0x1002
#guard container_of_ptr 2#64 (field_of_ptr 2#64 0x1000) = some 0x1000

-- `basic`, endian.rs
#guard [Host.little, Host.big].all fun h =>
  let r := store h 4 1020304050
  let b := from_native h .bigEndian r
  let l := from_native h .littleEndian r
  (from_raw r).bind to_raw = some r
    && (from_raw r).bind (to_native h .bigEndian) ≠ (from_raw r).bind (to_native h .littleEndian)
    && b.bind (to_native h .bigEndian) = some r && l.bind (to_native h .littleEndian) = some r
    && b.bind to_raw ≠ l.bind to_raw

-- `traits`, endian.rs
#guard [Host.little, Host.big].all fun h => [Wrapper.bigEndian, .littleEndian].all fun w =>
  ((do wrapperCmp h w ⟨4, false⟩ (← from_native h w (store h 4 1020304050)) (← from_native h w (store h 4 1020304051))) = some .lt)
    && ((do wrapperEq h w ⟨4, false⟩ (← from_native h w (store h 4 1020304050)) (← from_native h w (store h 4 1020304050))) = some true)

end Ptr

section Mem
open Ffi Ffi.Memory

/-- The layouts of `transmute_copy_uninit_mismatch`, mem.rs: two bytes of data and two of padding; two bytes of data. -/
def overaligned : Ty := ⟨4, 4, fun o => (o.take 2).all Option.isSome⟩
def underaligned : Ty := ⟨2, 1, fun o => o.all Option.isSome⟩

-- `transmute_copy_uninit_const`, `transmute_copy_uninit_mismatch`, mem.rs
#guard transmute_copy_uninit (uint 4 4) (uint 4 4) (place 8 [some 71, some 0, some 0, some 0]) 8 = some [some 71, some 0, some 0, some 0]
#guard transmute_copy_uninit (uint 2 2) overaligned (place 8 [some 71, some 0]) 8 = some [some 71, some 0, none, none]
#guard transmute_copy_uninit overaligned (uint 2 2) (place 8 [some 71, some 0, none, none]) 8 = some [some 71, some 0]
#guard transmute_copy_uninit (uint 2 2) underaligned (place 8 [some 71, some 0]) 8 = some [some 71, some 0]
#guard transmute_copy_uninit underaligned (uint 2 2) (place 7 [some 71, some 0]) 7 = some [some 71, some 0]

/-- A number in memory. -/
def stored (h : Host) (n v : Nat) : Obj := (store h n v).map some

-- `bswap_basic`, mem.rs
#guard [Host.little, Host.big].all fun h =>
  [(1, 0x12, 0x12), (2, 0x1234, 0x3412), (4, 0x12345678, 0x78563412), (8, 0x0011223344556677, 0x7766554433221100),
    (16, 0x00112233445566778899101112131415, 0x15141312111099887766554433221100)].all fun (n, v, w) =>
      bswap_copy h id 64 (uint n n) (place 16 (stored h n v)) 16 = some (stored h n w)
#guard [Host.little, Host.big].all fun h =>
  bswap_copy h id 64 ⟨3, 1, fun _ => true⟩ (place 16 [some 0, some 0x11, some 0x22]) 16 = some [some 0x22, some 0x11, some 0]

-- `byte_alias`, mem.rs
#guard as_bytes (uint 2 2) (place 8 [some 0xf0, some 0xf0]) 8 = some [0xf0, 0xf0]
#guard (do
    let m ← as_bytes_mut_set (uint 2 2) (place 8 [some 0xf0, some 0xf0]) 8 0 0x0f
    let m ← as_bytes_mut_set (uint 2 2) m 8 1 0x0f
    as_bytes (uint 2 2) m 8) = some [0x0f, 0x0f]

/-- Two objects in memory, at 8 and 16. -/
def both (a b : Obj) : Ram := fun x => if x < 16 then place 8 a x else place 16 b x

-- `byte_eq`, mem.rs
#guard eq (uint 2 2) (uint 2 2) (both (stored .little 2 0xf0f0) (stored .little 2 0xf0f0)) 8 16 = some true
#guard eq (uint 2 2) (uint 2 1) (both (stored .little 2 0xf0f0) [some 0xf0, some 0xf0]) 8 16 = some true
#guard eq (uint 2 2) (uint 2 2) (both (stored .little 2 0xf0f0) (stored .little 2 0x00f0)) 8 16 = some false
#guard eq (uint 2 2) (uint 4 4) (both (stored .little 2 0xf0f0) (stored .little 4 0xf0f0)) 8 16 = some false
#guard eq (uint 2 2) (uint 4 2) (both (stored .little 2 0xf0f0) (stored .little 2 0xf0 ++ stored .little 2 0xf0)) 8 16 = some false

end Mem

section Cfg
open Cfg

def isTest : Pred := .name "test"
def noTest : Pred := .not isTest

/-- The values that `cond!` leaves when testing. -/
def left (arms : List (Pred × Bool)) (els : Option Bool) : List Bool := kept [("test", none)] (cond arms els)

-- `basic_cond`, cfg.rs: V0 to V6
#guard left [(isTest, true)] none = [true]
#guard left [(isTest, true)] (some false) = [true]
#guard left [(noTest, false)] (some true) = [true]
#guard left [(noTest, false), (isTest, true), (.any [noTest, noTest], false)] none = [true]
#guard left [(noTest, false), (.any [noTest, noTest], false), (.any [isTest, noTest], true)] none = [true]
#guard left [(noTest, false), (.any [isTest, noTest], true), (noTest, false)] (some false) = [true]
#guard left [(noTest, false), (.any [noTest, noTest], false), (.any [noTest], false)] (some true) = [true]

end Cfg

section Own
open Wrap

def strings : Impl String Unit := ⟨(· == ·), fun a b => some (compare a b), compare, fun _ s => s⟩

-- `basic`, mown.rs
#guard
  let b : Mown String String := .new_borrowed "foobar"
  let o : Mown String String := .new_owned "foobar"
  (Mown.impl id strings).eq b o && b.deref id = o.deref id && b.deref id = "foobar" && o.deref id = "foobar"
    && b.is_borrowed && !o.is_borrowed && !b.is_owned && o.is_owned

def byAddress : Impl (Identity (Nat × Nat)) Unit :=
  Identity.impl (fun v => (⟨v.1, ()⟩ : RawPtr Unit)) (RawPtr.impl (fun _ s => s) unitImpl)

-- `basic`, cmp.rs: equal values at the addresses 16 and 24
#guard
  let v0 : Identity (Nat × Nat) := ⟨(16, 71)⟩
  let v1 : Identity (Nat × Nat) := ⟨(24, 71)⟩
  byAddress.eq v0 v0 && !byAddress.eq v0 v1 && byAddress.cmp v0 v0 = .eq && byAddress.cmp v0 v1 = .lt && byAddress.cmp v1 v0 = .gt

end Own

section Text
open Text

/-- Output to a string. -/
def put_ (t : List Char) : Fmt (List Char) := fun s => (s ++ t, true)

def printed (f : Fmt (List Char)) : String := String.ofList (f []).1

/-- The number 0 and the error of `uncaught_basic`, error.rs. -/
def zero_ : Value (List Char) Unit := ⟨put_ "0".toList, put_ "0".toList, ()⟩
def other_ : Value (List Char) Unit := ⟨put_ "Custom { kind: Other, error: \"foobar\" }".toList, put_ "foobar".toList, ()⟩
def foobar_ : Value (List Char) Unit := ⟨put_ "\"foobar\"".toList, put_ "foobar".toList, ()⟩

-- `uncaught_basic`, error.rs
#guard printed ((box_any zero_).fmtDebug true put_) = "Uncaught::Any()"
#guard printed ((box_any zero_).fmtDisplay put_) = "Uncaught(Any)"
#guard printed ((box_debug zero_).fmtDebug true put_) = "Uncaught::Debug(0)"
#guard printed ((box_debug zero_).fmtDisplay put_) = "Uncaught(Debug): 0"
#guard printed ((box_display zero_).fmtDebug true put_) = "Uncaught::Display(0)"
#guard printed ((box_display zero_).fmtDisplay put_) = "Uncaught(Display): 0"
#guard printed ((box_error other_).fmtDebug true put_) = "Uncaught::Error(Custom { kind: Other, error: \"foobar\" })"
#guard printed ((box_error other_).fmtDisplay put_) = "Uncaught(Error): foobar"
#guard printed ((box_error foobar_).fmtDebug false put_) = "Uncaught::Error(foobar)"
#guard printed ((box_error foobar_).fmtDisplay put_) = "Uncaught(Error): foobar"

end Text

end Verif.Tests
