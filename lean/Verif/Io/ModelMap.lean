/-! # Model of mapped I/O, `lib/tmp/src/io/map.rs`

The traits `Read` and `Write` are implemented by the caller. A reader is a function from its state, an index and a
length to a slice. A writer hands out mutable slices of logically linear memory (map.rs 64): the model keeps the
memory, and the implementation decides how much of it is mapped at an index. `usize` has 64 bits. A failed
assertion, an arithmetic overflow and an access out of range are `fault`. -/
namespace Verif.Io

/-- `usize::MAX`. -/
def usizeMax : Nat := 2 ^ 64 - 1

/-- `isize::MAX`, the largest number of bytes a vector or a slice can hold. -/
def isizeMax : Nat := 2 ^ 63 - 1

/-- `Error`, map.rs 12-19. -/
inductive IoErr | overflow | exceeded
deriving DecidableEq, Repr

/-- `ControlFlow<Option<Error>, α>`, or a panic. -/
inductive Flow (α : Type)
  | cont (a : α)
  | brk (e : Option IoErr)
  | fault
deriving DecidableEq, Repr

/-- An implementation of `Read`, map.rs 22-23. The state allows for interior mutability. -/
structure ReadImpl (σ : Type) where
  map : σ → Nat → Nat → σ × Flow (List UInt8)

/-- Outcome of a read: state, index, initialised part of the output, control flow. -/
structure ReadOut (σ : Type) where
  st : σ
  idx : Nat
  out : List UInt8
  flow : Flow Unit

/-- The loop of `Read::read_uninit`, map.rs 30-46. `len` is the length of the slice that is left, `out` what was
copied already. Every round copies a byte, so `fuel` is the length of the slice. -/
def readLoop {σ : Type} (I : ReadImpl σ) : Nat → σ → Nat → Nat → List UInt8 → ReadOut σ
  | fuel, st, idx, len, out =>
    if len > 0 then
      match fuel with
      | 0 => ⟨st, idx, out, .fault⟩
      | fuel + 1 =>
        match I.map st idx len with
        | (st, .brk e) => ⟨st, idx, out, .brk e⟩
        | (st, .fault) => ⟨st, idx, out, .fault⟩
        | (st, .cont map) =>
          if map.length > 0 then
            let n := min map.length len
            if idx + n ≤ usizeMax then readLoop I fuel st (idx + n) (len - n) (out ++ map.take n)
            else ⟨st, idx, out ++ map.take n, .fault⟩
          else ⟨st, idx, out, .fault⟩
    else ⟨st, idx, out, .cont ()⟩

/-- `Read::read_uninit`, map.rs 25-48, and `Read::read`, map.rs 50-61. -/
def read {σ : Type} (I : ReadImpl σ) (st : σ) (idx len : Nat) : ReadOut σ := readLoop I len st idx len []

/-- `Read for [u8]`, map.rs 155-166. -/
def sliceRead (data : List UInt8) : ReadImpl Unit where
  map _ idx len :=
    if idx + len ≤ usizeMax then
      if idx + len > data.length then ((), .brk (some .exceeded))
      else ((), .cont ((data.drop idx).take len))
    else ((), .brk (some .overflow))

/-- Memory of a writer: bytes at indices, `none` where nothing was written. -/
abbrev Mem := Nat → Option UInt8

/-- Copying bytes to an index. -/
def put (m : Mem) (i : Nat) (d : List UInt8) : Mem :=
  fun j => if i ≤ j ∧ j < i + d.length then d[j - i]? else m j

/-- An implementation of `Write`, map.rs 65-74: `map` yields the length of the slice mapped at the index, `commit`
takes the number of bytes to commit. -/
structure WriteImpl (σ : Type) where
  map : σ → Nat → Nat → σ × Flow Nat
  commit : σ → Nat → σ

/-- A writer and its memory. -/
structure Writer (σ : Type) where
  st : σ
  mem : Mem

/-- Outcome of a write. -/
structure WriteOut (σ : Type) where
  w : Writer σ
  idx : Nat
  flow : Flow Unit

/-- The loop of `Write::write`, map.rs 86-93. -/
def writeLoop {σ : Type} (I : WriteImpl σ) : Nat → Writer σ → Nat → List UInt8 → WriteOut σ
  | fuel, w, idx, data =>
    if data.length > 0 then
      match fuel with
      | 0 => ⟨w, idx, .fault⟩
      | fuel + 1 =>
        match I.map w.st idx data.length with
        | (st, .brk e) => ⟨⟨st, w.mem⟩, idx, .brk e⟩
        | (st, .fault) => ⟨⟨st, w.mem⟩, idx, .fault⟩
        | (st, .cont map) =>
          if map > 0 then
            let n := min map data.length
            let mem := put w.mem idx (data.take n)
            if idx + n ≤ usizeMax then writeLoop I fuel ⟨st, mem⟩ (idx + n) (data.drop n)
            else ⟨⟨st, mem⟩, idx, .fault⟩
          else ⟨⟨st, w.mem⟩, idx, .fault⟩
    else ⟨w, idx, .cont ()⟩

/-- `Write::write`, map.rs 76-95. -/
def write {σ : Type} (I : WriteImpl σ) (w : Writer σ) (idx : Nat) (data : List UInt8) : WriteOut σ :=
  writeLoop I data.length w idx data

/-- The loop of `Write::fill`, map.rs 132-139. -/
def fillLoop {σ : Type} (I : WriteImpl σ) : Nat → Writer σ → Nat → Nat → UInt8 → WriteOut σ
  | fuel, w, idx, len, data =>
    if len > 0 then
      match fuel with
      | 0 => ⟨w, idx, .fault⟩
      | fuel + 1 =>
        match I.map w.st idx len with
        | (st, .brk e) => ⟨⟨st, w.mem⟩, idx, .brk e⟩
        | (st, .fault) => ⟨⟨st, w.mem⟩, idx, .fault⟩
        | (st, .cont map) =>
          if map > 0 then
            let n := min map len
            let mem := put w.mem idx (List.replicate n data)
            if idx + n ≤ usizeMax then fillLoop I fuel ⟨st, mem⟩ (idx + n) (len - n) data
            else ⟨⟨st, mem⟩, idx, .fault⟩
          else ⟨⟨st, w.mem⟩, idx, .fault⟩
    else ⟨w, idx, .cont ()⟩

/-- `Write::fill`, map.rs 125-141. -/
def fill {σ : Type} (I : WriteImpl σ) (w : Writer σ) (idx len : Nat) (data : UInt8) : WriteOut σ :=
  fillLoop I len w idx len data

/-- `Write::zero`, map.rs 143-145. -/
def zero {σ : Type} (I : WriteImpl σ) (w : Writer σ) (idx len : Nat) : WriteOut σ := fill I w idx len 0

/-- `(1 << exp) as usize`, map.rs 148 and dvar.rs 559: a shift of the `i32` 1, sign-extended. Shifts by 32 or more
overflow. -/
def shl1 (exp : Nat) : Option Nat :=
  if exp < 31 then some (2 ^ exp) else if exp = 31 then some (2 ^ 64 - 2 ^ 31) else none

/-- `usize::checked_next_multiple_of` for a non-zero argument. -/
def checkedNextMultipleOf (v m : Nat) : Option Nat :=
  if v % m = 0 then some v else if v + (m - v % m) ≤ usizeMax then some (v + (m - v % m)) else none

/-- `Write::align_exp2`, map.rs 147-152. -/
def alignExp2 {σ : Type} (I : WriteImpl σ) (w : Writer σ) (idx exp : Nat) : WriteOut σ :=
  match shl1 exp with
  | none => ⟨w, idx, .fault⟩
  | some m =>
    match checkedNextMultipleOf idx m with
    | none => ⟨w, idx, .brk (some .overflow)⟩
    | some v => zero I w idx (v - idx)

/-- `ExactSizeIterator<Item = u8>`: `next` and the lower bound of `size_hint`; `none` is a panic. -/
structure Iter (ι : Type) where
  next : ι → Option (Option UInt8 × ι)
  hint : ι → Option Nat

/-- Outcome of the inner loop of `write_iter`. -/
structure IterOut (ι : Type) where
  it : ι
  mem : Mem
  idx : Nat
  ok : Bool

/-- The inner loop of `Write::write_iter`, map.rs 117-121. The mapped slice ends at index `stop`. -/
def iterInner {ι : Type} (T : Iter ι) (stop : Nat) : Nat → ι → Mem → Nat → IterOut ι
  | 0, it, mem, idx => ⟨it, mem, idx, true⟩
  | n + 1, it, mem, idx =>
    match T.next it with
    | none => ⟨it, mem, idx, false⟩
    | some (none, it) => ⟨it, mem, idx, false⟩
    | some (some b, it) =>
      let mem := put mem (stop - (n + 1)) [b]
      if idx + 1 ≤ usizeMax then iterInner T stop n it mem (idx + 1) else ⟨it, mem, idx, false⟩

/-- The outer loop of `Write::write_iter`, map.rs 102-122. -/
def writeIterLoop {σ ι : Type} (I : WriteImpl σ) (T : Iter ι) : Nat → Writer σ → Nat → ι → WriteOut σ
  | 0, w, idx, _ => ⟨w, idx, .fault⟩
  | fuel + 1, w, idx, it =>
    match T.hint it with
    | none => ⟨w, idx, .fault⟩
    | some 0 =>
      match T.next it with
      | some (none, _) => ⟨w, idx, .cont ()⟩
      | _ => ⟨w, idx, .fault⟩
    | some (n + 1) =>
      match I.map w.st idx (n + 1) with
      | (st, .brk e) => ⟨⟨st, w.mem⟩, idx, .brk e⟩
      | (st, .fault) => ⟨⟨st, w.mem⟩, idx, .fault⟩
      | (st, .cont map) =>
        if map > 0 then
          let r := iterInner T (idx + map) (min (n + 1) map) it w.mem idx
          if r.ok then writeIterLoop I T fuel ⟨st, r.mem⟩ r.idx r.it else ⟨⟨st, r.mem⟩, r.idx, .fault⟩
        else ⟨⟨st, w.mem⟩, idx, .fault⟩

/-- `Write::write_iter`, map.rs 97-123. Every round takes an item, so that a correct hint bounds the rounds. -/
def writeIter {σ ι : Type} (I : WriteImpl σ) (T : Iter ι) (w : Writer σ) (idx : Nat) (it : ι) : WriteOut σ :=
  match T.hint it with
  | none => ⟨w, idx, .fault⟩
  | some n => writeIterLoop I T (n + 1) w idx it

/-- An iterator over the items of a list. -/
def listIter : Iter (List UInt8) where
  next | [] => some (none, []) | b :: l => some (some b, l)
  hint l := some l.length

/-- `Write for Vec<u8>`, map.rs 168-195. The state is the length of the vector. `map` reserves enough capacity and
slices exactly the range from the beginning of the vector. A failed allocation, which includes that of more than
`isize::MAX` bytes, is not modelled: theorems about the contents of vectors assume that they fit. `commit` adds to the
length; both numbers are bounded by the capacity, at most `isize::MAX`, so that `strict_add` does not panic. -/
def vecWrite : WriteImpl Nat where
  map len idx n := if idx + n ≤ usizeMax then (len, .cont n) else (len, .brk (some .overflow))
  commit len n := len + n

/-- The contents of a vector: `len` bytes, `none` if one of them is not initialised. -/
def vecBytes (w : Writer Nat) : Option (List UInt8) := (List.range w.st).mapM w.mem

/-- A vector with contents. -/
def vecOf (bs : List UInt8) : Writer Nat := ⟨bs.length, fun i => bs[i]?⟩

end Verif.Io
