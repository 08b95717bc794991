import Verif.Io.SpecVec
/-! # Model of the moves of growing vectors, `lib/tmp/src/io/map.rs` 168-195 and `lib/tmp/src/io/stream.rs` 252-264

When a vector has to grow its allocation may be moved, and then all of it is copied. The implementations of `map` for vectors call
`Vec::reserve` (map.rs 185, stream.rs 261), and nothing else grows a vector. -/
namespace Verif.Io

/-- The bytes that `Vec::reserve` copies: none if there is enough capacity, otherwise the old allocation. -/
def RawVec.moves (v : RawVec) (n : Nat) : Nat := if v.len + n ≤ v.cap then 0 else v.cap

/-- `stream::Write::map`, stream.rs 260-263, as `smap`: the bytes that are copied. -/
def RawVec.smoves (v : RawVec) (min : Nat) (max : Option Nat) : Nat := v.moves (max.getD min)

/-- `map::Write::map`, map.rs 175-194, as `mmap`: the bytes that are copied. -/
def RawVec.mmoves (v : RawVec) (idx len : Nat) : Nat :=
  if idx + len ≤ usizeMax then if idx + len > v.len then v.moves (idx + len - v.len) else 0 else 0

/-- The bytes that are copied by a call of `stream::Write`; `map_unchecked` (stream.rs 135-144) and `write` (154-164) call `map`. -/
def SCall.moves (v : RawVec) : SCall → Nat
  | .map min max _ => v.smoves min max
  | .unchecked n _ => v.smoves n (some n)
  | .commit _ => 0
  | .write bs => v.smoves bs.length (some bs.length)

/-- The bytes that are copied by a call of `map::Write`. -/
def MCall.moves (v : RawVec) : MCall → Nat
  | .map idx len _ => v.mmoves idx len
  | .commit _ => 0

/-- `map::Write` for vectors with their capacity and the bytes that were copied so far; the memory is that of the writer. -/
def growWrite (A : Alloc) : WriteImpl (RawVec × Nat) where
  map st idx len :=
    match st.1.mmap A idx len with
    | none => ((st.1, st.2 + st.1.mmoves idx len), .fault)
    | some none => (st, .brk (some .overflow))
    | some (some v) => ((v, st.2 + st.1.mmoves idx len), .cont len)
  commit st n := ({ st.1 with len := st.1.len + n }, st.2)

end Verif.Io
