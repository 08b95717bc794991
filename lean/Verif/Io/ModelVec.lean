import Verif.Io.ModelMap
/-! # Model of vectors as writers, `lib/tmp/src/io/map.rs` 168-195 and `lib/tmp/src/io/stream.rs` 252-264

Both implementations hand out cells of a vector that need not be initialised, and commit by changing the length of the
vector. Here a vector is its memory: `ModelMap` and `ModelStream` have models of what the data is, this one is about which
cells are initialised, over histories of calls. What a caller does with the cells it gets is part of the call: a
`MaybeUninit<u8>` can be left alone, be set to a byte, and be set to `MaybeUninit::uninit()`, all of it in safe code. -/
namespace Verif.Io

/-- A vector of bytes: length, capacity, and memory; `none` is a byte that is not initialised. -/
structure RawVec where
  len : Nat
  cap : Nat
  mem : Mem

/-- What is left to the allocator when a vector grows: the new capacity, and what is in the cells behind the length. -/
structure Alloc where
  grow : RawVec → Nat → Nat
  fresh : RawVec → Nat → Mem
  enough : ∀ v n, v.len + n ≤ grow v n ∧ v.cap ≤ grow v n
  fits : ∀ v n, v.cap ≤ isizeMax → v.len + n ≤ isizeMax → grow v n ≤ isizeMax

/-- `Vec::reserve`: does nothing if there is enough capacity, and panics if a vector cannot have that capacity. The elements of
the vector are kept. -/
def RawVec.reserve (A : Alloc) (v : RawVec) (n : Nat) : Option RawVec :=
  if v.len + n ≤ v.cap then some v
  else if v.len + n ≤ isizeMax then
    some { v with cap := A.grow v n, mem := fun i => if i < v.len then v.mem i else A.fresh v n i }
  else none

/-- What a caller does to a slice of cells: for every index nothing, or the new contents. -/
abbrev Touch := Nat → Option (Option UInt8)

/-- The cells from `a` on, `n` of them, are handed to a caller. -/
def touch (m : Mem) (a n : Nat) (t : Touch) : Mem :=
  fun i => if a ≤ i ∧ i < a + n then (t (i - a)).getD (m i) else m i

/-- Setting the first cells to the given bytes, as `copy_from_slice` does. -/
def copyOf (bs : List UInt8) : Touch := fun i => bs[i]?.map some

namespace RawVec

/-- `Vec::set_len(self.len().strict_add(len))`, map.rs 171 and stream.rs 256. `none` is a panic. -/
def commit (v : RawVec) (n : Nat) : Option RawVec :=
  if v.len + n ≤ usizeMax then some { v with len := v.len + n } else none

/-- `stream::Write::map`, stream.rs 260-263: the vector, and the length of the slice, which begins at the length of the vector. -/
def smap (A : Alloc) (v : RawVec) (min : Nat) (max : Option Nat) : Option (RawVec × Nat) :=
  match v.reserve A (max.getD min) with
  | none => none
  | some v => some (v, v.cap - v.len)

/-- `stream::Write::write`, stream.rs 154-164. -/
def swrite (A : Alloc) (v : RawVec) (bs : List UInt8) : Option RawVec :=
  match v.smap A bs.length (some bs.length) with
  | none => none
  | some (v, n) =>
    if bs.length ≤ n then commit { v with mem := touch v.mem v.len bs.length (copyOf bs) } bs.length else none

/-- `stream::Write::map_unchecked`, stream.rs 135-144: the cells that are handed out as bytes. -/
def sunchecked (A : Alloc) (v : RawVec) (n : Nat) : Option (RawVec × List (Option UInt8)) :=
  match v.smap A n (some n) with
  | none => none
  | some (v, k) => if n ≤ k then some (v, (List.range n).map fun i => v.mem (v.len + i)) else none

/-- `map::Write::map`, map.rs 175-194: the slice begins at `idx` and has `len` cells. `ok none` is `Error::Overflow`. -/
def mmap (A : Alloc) (v : RawVec) (idx len : Nat) : Option (Option RawVec) :=
  if idx + len ≤ usizeMax then
    if idx + len > v.len then
      match v.reserve A (idx + len - v.len) with
      | none => none
      | some v => if idx + len ≤ v.cap then some (some v) else none
    else if idx + len ≤ v.cap then some (some v) else none
  else some none

end RawVec

/-! ## Histories -/

/-- How a history ends. -/
inductive Played (α : Type)
  | done (a : α)
  /-- A call panicked. -/
  | panic
  /-- The caller broke the contract of an unsafe call. -/
  | breach

/-- Calls of `stream::Write`, and what is done with the slices. -/
inductive SCall
  | map (min : Nat) (max : Option Nat) (t : Touch)
  | unchecked (n : Nat) (t : Nat → Option UInt8)
  | commit (n : Nat)
  | write (bs : List UInt8)

/-- Calls of `map::Write`, and what is done with the slices. -/
inductive MCall
  | map (idx len : Nat) (t : Touch)
  | commit (n : Nat)

#guard (RawVec.swrite ⟨fun v n => max v.cap (v.len + n), fun v _ => v.mem, fun _ _ => by constructor <;> omega, fun _ _ _ _ => by omega⟩
  ⟨1, 1, fun i => if i = 0 then some 7 else none⟩ [8, 9]).map (fun v => (v.len, v.cap, (List.range 4).map v.mem))
  = some (3, 3, [some 7, some 8, some 9, none])

end Verif.Io
