import Verif.Bin.ModelSum
/-! # Model of how DOS loads an executable, as documented in `lib/tmp/src/msdosmz.rs`

The library has no loader: this is what the documentation of the fields of `Header` and `Relocation` says a loader does with them, and the
claims on `STUB_X86` are about that. Files are lists of bytes. -/
namespace Verif.Bin.Dos

/-- A little-endian word of a file; bytes behind the end are 0, msdosmz.rs 85. -/
def word (file : List UInt8) (off : Nat) : Nat := (file.getD off 0).toNat + 256 * (file.getD (off + 1) 0).toNat

/-- `Header`, msdosmz.rs 174-328: the fields that matter to a loader, at their offsets (cf. C49). -/
structure Header where
  cblp : Nat
  cp : Nat
  crlc : Nat
  cparhdr : Nat
  minalloc : Nat
  maxalloc : Nat
  ss : Nat
  sp : Nat
  ip : Nat
  cs : Nat
  lfarlc : Nat
deriving DecidableEq, Repr

/-- `Header::from_bytes`, msdosmz.rs 390-411. -/
def header (file : List UInt8) : Header :=
  { cblp := word file 2, cp := word file 4, crlc := word file 6, cparhdr := word file 8, minalloc := word file 10, maxalloc := word file 12,
    ss := word file 14, sp := word file 16, ip := word file 20, cs := word file 22, lfarlc := word file 24 }

/-- The size of the executable within the file, msdosmz.rs 185-206. -/
def Header.size (h : Header) : Nat := if h.cblp = 0 then h.cp * 512 else (h.cp - 1) * 512 + h.cblp

/-- What is loaded: the executable without its header, msdosmz.rs 97-99 and 222-225. -/
def image (file : List UInt8) : List UInt8 := (file.take (header file).size).drop ((header file).cparhdr * 16)

/-- An entry of the relocation table, `(segment, offset)`, msdosmz.rs 298-315 and 369-387. -/
def relocation (file : List UInt8) (i : Nat) : Nat × Nat :=
  (word file ((header file).lfarlc + 4 * i + 2), word file ((header file).lfarlc + 4 * i))

/-- Memory, by linear address. -/
abbrev Mem := Nat → UInt8

/-- The start segment is added to the word at `a`, msdosmz.rs 373-376. -/
def relocate (start a : Nat) (m : Mem) : Mem :=
  let w := ((m a).toNat + 256 * (m (a + 1)).toNat + start) % 65536
  fun x => if x = a then UInt8.ofNat (w % 256) else if x = a + 1 then UInt8.ofNat (w / 256) else m x

/-- The contents of the memory once the file is loaded at a segment, msdosmz.rs 58-62, 97-99 and 369-379. -/
def loaded (file : List UInt8) (start : Nat) (m : Mem) : Mem :=
  (List.range (header file).crlc).foldl
    (fun m i => relocate start ((start + (relocation file i).1) * 16 + (relocation file i).2) m)
    (fun x => if start * 16 ≤ x ∧ x < start * 16 + (image file).length then (image file).getD (x - start * 16) 0 else m x)

end Verif.Bin.Dos
