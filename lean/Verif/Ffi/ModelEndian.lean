/-! # Model of `lib/osi/src/ffi/endian.rs` and the byte helpers of `lib/osi/src/mem.rs`

An object is its memory: a list of bytes. Uninitialised bytes are `none` (`Uninit`), and reading them is
`none` for the whole object. An integer of `n` bytes is a natural number below `256^n`; how it lies in
memory depends on the host. -/
namespace Verif.Ffi

/-- `target_endian`. -/
inductive Host | little | big
deriving DecidableEq

/-- The wrapper types `BigEndian`, `LittleEndian` (endian.rs 77 and 88) and plain integers (143-166). -/
inductive Wrapper | bigEndian | littleEndian | plain
deriving DecidableEq

/-- The `n` low bytes of `v`, least significant first. -/
def leBytes : Nat → Nat → List UInt8
  | 0, _ => []
  | n + 1, v => UInt8.ofNat (v % 256) :: leBytes n (v / 256)

/-- The number whose bytes, least significant first, are given. -/
def leVal : List UInt8 → Nat
  | [] => 0
  | b :: bs => b.toNat + 256 * leVal bs

/-- Memory of an integer of `n` bytes. -/
def store (h : Host) (n v : Nat) : List UInt8 :=
  match h with
  | .little => leBytes n v
  | .big => (leBytes n v).reverse

/-- Value of the integer that lies in memory. -/
def load (h : Host) (m : List UInt8) : Nat :=
  match h with
  | .little => leVal m
  | .big => leVal m.reverse

/-- `uN::swap_bytes` (core library) on a value of `n` bytes. -/
def swap_bytes (n v : Nat) : Nat := leVal (leBytes n v).reverse

/-- `Uninit::assume_init`: `none` if a byte is uninitialised. -/
def assume_init (m : List (Option UInt8)) : Option (List UInt8) := m.mapM id

/-- The loop of `bswap_slow`, mem.rs 117-135, from index `i` on; `k` iterations left. -/
def bswap_loop (src : List UInt8) : (k i : Nat) → List (Option UInt8) → List (Option UInt8)
  | 0, _, dst => dst
  | k + 1, i, dst => bswap_loop src k (i + 1) (dst.set i src[src.length - i - 1]?)

/-- `bswap_slow`, mem.rs 117-135. -/
def bswap_slow (src : List UInt8) : Option (List UInt8) :=
  assume_init (bswap_loop src src.length 0 (List.replicate src.length none))

/-- `bswap_copy`, mem.rs 148-161: through the integer of the same size if there is one. -/
def bswap_copy (h : Host) (m : List UInt8) : Option (List UInt8) :=
  match m.length with
  | 1 => some m
  | 2 => some (store h 2 (swap_bytes 2 (load h m)))
  | 4 => some (store h 4 (swap_bytes 4 (load h m)))
  | 8 => some (store h 8 (swap_bytes 8 (load h m)))
  | 16 => some (store h 16 (swap_bytes 16 (load h m)))
  | _ => bswap_slow m

/-- `transmute_copy_uninit`, mem.rs 81-112, to an object of `n` bytes. -/
def transmute_copy_uninit (src : List (Option UInt8)) (n : Nat) : List (Option UInt8) :=
  if src.length < n then src ++ List.replicate (n - src.length) none else src.take n

/-- `NEEDS_SWAP`, endian.rs 438-546 (and its default `false`, 32). -/
def NEEDS_SWAP : Host → Wrapper → Bool
  | _, .plain => false
  | .big, .bigEndian => false
  | .big, .littleEndian => true
  | .little, .bigEndian => true
  | .little, .littleEndian => false

/-- `from_raw`, endian.rs 98-102: the wrapper is `repr(transparent)`, so it has the size of `Raw`. -/
def from_raw (r : List UInt8) : Option (List UInt8) :=
  assume_init (transmute_copy_uninit (r.map some) r.length)

/-- `to_raw`, endian.rs 108-112. -/
def to_raw (e : List UInt8) : Option (List UInt8) :=
  assume_init (transmute_copy_uninit (e.map some) e.length)

/-- `from_native`, endian.rs 118-126, on the memory of the raw value. -/
def from_native (h : Host) (w : Wrapper) (r : List UInt8) : Option (List UInt8) :=
  if NEEDS_SWAP h w then do from_raw (← bswap_copy h r) else from_raw r

/-- `to_native`, endian.rs 133-141. -/
def to_native (h : Host) (w : Wrapper) (e : List UInt8) : Option (List UInt8) :=
  if NEEDS_SWAP h w then do bswap_copy h (← to_raw e) else to_raw e

/-- The integer type behind a wrapper: number of bytes and signedness. -/
structure IntTy where
  bytes : Nat
  signed : Bool

/-- Two's complement reading of an unsigned value. -/
def IntTy.read (t : IntTy) (v : Nat) : Int :=
  if t.signed ∧ 256 ^ t.bytes ≤ 2 * v then (v : Int) - 256 ^ t.bytes else v

/-- Equality of wrappers, endian.rs 282-290, 417-425: through the native values. -/
def wrapperEq (h : Host) (w : Wrapper) (t : IntTy) (a b : List UInt8) : Option Bool := do
  let x ← to_native h w a
  let y ← to_native h w b
  pure (decide (t.read (load h x) = t.read (load h y)))

/-- Order of wrappers, endian.rs 271-279, 406-414. -/
def wrapperCmp (h : Host) (w : Wrapper) (t : IntTy) (a b : List UInt8) : Option Ordering := do
  let x ← to_native h w a
  let y ← to_native h w b
  pure (compare (t.read (load h x)) (t.read (load h y)))

end Verif.Ffi
