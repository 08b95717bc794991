/-! # Model of the DOS checksum and of the DOS stub, `lib/tmp/src/msdosmz.rs` -/
namespace Verif.Bin

/-- `data.chunks(2)`. -/
def chunks2 : List UInt8 → List (List UInt8)
  | a :: b :: l => [a, b] :: chunks2 l
  | [a] => [[a]]
  | [] => []

/-- One round of `sum16`, msdosmz.rs 163-171; `none` for the `unreachable!()`. -/
def sumStep (acc : BitVec 16) (values : List UInt8) : Option (BitVec 16) :=
  match values with
  | [a] => some (acc + BitVec.ofNat 16 a.toNat)
  | [a, b] => some (acc + BitVec.ofNat 16 (a.toNat + 256 * b.toNat))
  | _ => none

/-- `sum16`, msdosmz.rs 160-173. -/
def sum16 (data : List UInt8) : Option (BitVec 16) := (chunks2 data).foldlM sumStep 0

/-- `MAGIC`, msdosmz.rs 123-148 (the sizes there are in ModelConsts.lean). -/
def magic : List UInt8 := [0x4d, 0x5a]

/-- `STUB_X86`, msdosmz.rs 504-554. -/
def stubX86 : List UInt8 := [
  0x4d, 0x5a,
  0x80, 0x00,
  0x01, 0x00,
  0x00, 0x00,
  0x04, 0x00,
  0x00, 0x00,
  0xff, 0xff,
  0x00, 0x00,
  0x80, 0x00,
  0x68, 0xa7,
  0x00, 0x00,
  0x00, 0x00,
  0x40, 0x00,
  0x00, 0x00,
  0x00, 0x00, 0x00, 0x00,
  0x00, 0x00, 0x00, 0x00,
  0x00, 0x00,
  0x00, 0x00,
  0x00, 0x00, 0x00, 0x00,
  0x00, 0x00, 0x00, 0x00,
  0x00, 0x00, 0x00, 0x00,
  0x00, 0x00, 0x00, 0x00,
  0x00, 0x00, 0x00, 0x00,
  0x80, 0x00, 0x00, 0x00,
  0x0e,
  0x1f,
  0xba, 0x0e, 0x00,
  0xb4, 0x09,
  0xcd, 0x21,
  0xb8, 0x01, 0x4c,
  0xcd, 0x21,
  0x54, 0x68, 0x69, 0x73, 0x20, 0x70, 0x72, 0x6f,
  0x67, 0x72, 0x61, 0x6d, 0x20, 0x63, 0x61, 0x6e,
  0x6e, 0x6f, 0x74, 0x20, 0x62, 0x65, 0x20, 0x72,
  0x75, 0x6e, 0x20, 0x69, 0x6e, 0x20, 0x44, 0x4f,
  0x53, 0x20, 0x6d, 0x6f, 0x64, 0x65, 0x2e, 0x0d,
  0x0d, 0x0a, 0x24,
  0x00, 0x00, 0x00, 0x00, 0x00, 0x00, 0x00]

end Verif.Bin
