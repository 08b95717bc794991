import Verif.Ffi.ModelEndian
/-! # Model of `lib/osi/src/mem.rs` on the level of addresses

Memory is a function from addresses to bytes. Addresses outside of the objects in question must not be accessed, and the typed read of the
standard library must not be used on addresses that are not aligned: both are undefined behaviour, as is the creation of an invalid value, and all
of these are `none`. Simplification: a local variable is not part of that memory, but a list of bytes of its own. -/
namespace Verif.Ffi.Memory

/-- `none`: no access allowed; `some none`: an uninitialised byte. -/
abbrev Ram := Nat → Option (Option UInt8)

/-- A possibly uninitialised object. -/
abbrev Obj := List (Option UInt8)

/-- What `size_of` and `align_of` tell about a type, and which byte sequences are valid values of it. -/
structure Ty where
  size : Nat
  align : Nat
  valid : Obj → Bool

/-- Read `n` bytes. -/
def bytesAt (m : Ram) (a : Nat) : Nat → Option Obj
  | 0 => some []
  | n + 1 => do
    let b ← m a
    let r ← bytesAt m (a + 1) n
    pure (b :: r)

/-- `core::ptr::copy` of `n` bytes to a local variable, from its offset `o` on. -/
def copyTo (m : Ram) (src n : Nat) (dst : Obj) (o : Nat) : Option Obj := do
  let bs ← bytesAt m src n
  if o + n ≤ dst.length then pure (dst.take o ++ bs ++ dst.drop (o + n)) else none

/-- `Uninit::assume_init`. -/
def assumeInit (T : Ty) (o : Obj) : Option Obj := if T.valid o then some o else none

/-- `core::ptr::read_unaligned`. -/
def readUnaligned (T : Ty) (m : Ram) (a : Nat) : Option Obj := do assumeInit T (← bytesAt m a T.size)

/-- `core::ptr::read`. -/
def read (T : Ty) (m : Ram) (a : Nat) : Option Obj := if a % T.align = 0 then readUnaligned T m a else none

/-- `copy_unaligned`, mem.rs 50-63: the type only matters for its size. -/
def copy_unaligned (T : Ty) (m : Ram) (src : Nat) (dst : Obj) (count : Nat) : Option Obj := copyTo m src (count * T.size) dst 0

/-- `transmute_copy_uninit`, mem.rs 81-112; `src` is the address in the reference. -/
def transmute_copy_uninit (S D : Ty) (m : Ram) (src : Nat) : Option Obj :=
  if S.size < D.size then do
    let dst ← copy_unaligned S m src (List.replicate D.size none) 1
    assumeInit D dst
  else if D.align > S.align then readUnaligned D m src
  else read D m src

/-- `core::mem::transmute_copy`; a larger target is a panic. -/
def transmute_copy (S D : Ty) (m : Ram) (src : Nat) : Option Obj :=
  if S.size < D.size then none
  else if D.align > S.align then readUnaligned D m src
  else read D m src

/-- A temporary object at address `a`, and nothing else. -/
def place (a : Nat) (o : Obj) : Ram := fun x => if a ≤ x then o[x - a]? else none

/-- `u8`, `u16`, …: every initialised byte sequence is a value. -/
def uint (n align : Nat) : Ty := ⟨n, align, fun o => o.all Option.isSome⟩

/-- One of the cases of `bswap_copy`, mem.rs 154-157: through the integer with `n` bytes and the alignment `al`. The temporary is at
address `tmp`. -/
def bswapInt (h : Host) (T : Ty) (n al tmp : Nat) (m : Ram) (v : Nat) : Option Obj := do
  let x ← assume_init (← transmute_copy T (uint n al) m v)
  let y := store h n (swap_bytes n (load h x))
  transmute_copy (uint n al) T (place tmp (y.map some)) tmp

/-- The loop of `bswap_slow`, mem.rs 123-131; `k` iterations left. -/
def bswapLoop (T : Ty) (m : Ram) (v : Nat) : (k i : Nat) → Obj → Option Obj
  | 0, _, dst => some dst
  | k + 1, i, dst => do
    let dst ← copyTo m (v + (T.size - i - 1)) 1 dst i
    bswapLoop T m v k (i + 1) dst

/-- `bswap_slow`, mem.rs 117-135. -/
def bswap_slow (T : Ty) (m : Ram) (v : Nat) : Option Obj := do
  assumeInit T (← bswapLoop T m v T.size 0 (List.replicate T.size none))

/-- `bswap_copy`, mem.rs 148-161. `al` gives the alignments of the integers. -/
def bswap_copy (h : Host) (al : Nat → Nat) (tmp : Nat) (T : Ty) (m : Ram) (v : Nat) : Option Obj :=
  match T.size with
  | 1 => transmute_copy T T m v
  | 2 => bswapInt h T 2 (al 2) tmp m v
  | 4 => bswapInt h T 4 (al 4) tmp m v
  | 8 => bswapInt h T 8 (al 8) tmp m v
  | 16 => bswapInt h T 16 (al 16) tmp m v
  | _ => bswap_slow T m v

/-- What the slice of `as_bytes`, mem.rs 245-253, shows: its length is the size of the type. Uninitialised bytes must not be read. -/
def as_bytes (T : Ty) (m : Ram) (v : Nat) : Option (List UInt8) := do assume_init (← bytesAt m v T.size)

/-- Assign to a byte of the slice of `as_bytes_mut`, mem.rs 270-278; an index out of bounds is a panic. -/
def as_bytes_mut_set (T : Ty) (m : Ram) (v i : Nat) (b : UInt8) : Option Ram :=
  if i < T.size then do
    let _ ← m (v + i)
    pure fun x => if x = v + i then some (some b) else m x
  else none

/-- `eq`, mem.rs 293-296: slices of different lengths differ, others are compared byte by byte. -/
def eq (A B : Ty) (m : Ram) (a b : Nat) : Option Bool :=
  if A.size ≠ B.size then some false
  else do
    let x ← as_bytes A m a
    let y ← as_bytes B m b
    pure (x == y)

#guard (transmute_copy_uninit (uint 2 2) (uint 4 4) (place 6 [some 1, some 2]) 6).isNone
#guard transmute_copy_uninit (uint 4 4) (uint 2 2) (place 8 [some 1, some 2, some 3, some 4]) 8 = some [some 1, some 2]
#guard bswap_copy .little id 16 (uint 4 4) (place 8 [some 1, some 2, some 3, some 4]) 8 = some [some 4, some 3, some 2, some 1]
#guard bswap_copy .big id 16 ⟨3, 1, fun _ => true⟩ (place 7 [some 1, some 2, some 3]) 7 = some [some 3, some 2, some 1]

end Verif.Ffi.Memory
