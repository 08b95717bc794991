import Verif.Bin.ModelSum
import Verif.Bin.ModelLayout
import Verif.Bin.ModelDos
import Verif.Io.ModelVec

/-! The tests of tmp/src/msdosmz.rs, tmp/src/pecoff.rs, sys/src/ffi/elf.rs and tmp/src/io/stream.rs, run on the models. -/
namespace Verif.Tests

open Bin

-- `verify_types`, msdosmz.rs
#guard reprC 1 dosHeader = ⟨28, 2⟩
#guard reprC 1 dosHeaderExt = ⟨36, 4⟩
#guard reprC 1 dosRelocation = ⟨4, 2⟩

-- `verify_header`, `verify_headerext`, `verify_relocation`, msdosmz.rs
#guard ((fromBytes dosHeader 28 (stubX86.take 28)).bind fun m => asBytes dosHeader 28 m) = some (stubX86.take 28)
#guard ((fromBytes dosHeaderExt 36 ((stubX86.drop 28).take 36)).bind fun m => asBytes dosHeaderExt 36 m) = some ((stubX86.drop 28).take 36)
#guard ((fromBytes dosRelocation 4 [0x10, 0, 0x20, 0]).bind fun m => asBytes dosRelocation 4 m) = some [0x10, 0, 0x20, 0]

/-- A little-endian field of a byte list. -/
def field (fs : Fields) (data : List UInt8) (name : String) : Option Nat :=
  ((place 0 fs).1.find? (·.name == name)).bind fun p =>
    (fromBytes fs data.length data).bind fun m =>
      (getField m p).reverse.foldlM (fun a b => b.map fun b => a * 256 + b.toNat) 0

#guard field dosRelocation [0x10, 0, 0x20, 0] "offset" = some 0x10
#guard field dosRelocation [0x10, 0, 0x20, 0] "segment" = some 0x20

-- `verify_sum16`, msdosmz.rs
#guard sum16 [0x00, 0x00, 0x01, 0x00, 0x02, 0x00, 0x03, 0x00] = some 6
#guard sum16 [0x00, 0x00, 0x01, 0x00, 0x02, 0x00, 0x03] = some 6
#guard sum16 [0x01, 0x02, 0x02, 0x04] = some 0x0603
#guard sum16 [0xff, 0xff, 0x02, 0x00] = some 1

-- `verify_stub_x86`, msdosmz.rs
#guard stubX86.take 2 = magic
#guard [("cblp", 128), ("cp", 1), ("crlc", 0), ("cparhdr", 4), ("minalloc", 0), ("maxalloc", 0xffff), ("ss", 0), ("sp", 0x80),
  ("csum", 0xa768), ("ip", 0), ("cs", 0), ("lfarlc", 0x40), ("ovno", 0)].all fun (n, v) => field dosHeader (stubX86.take 28) n = some v
#guard [("res", 0), ("oemid", 0), ("oeminfo", 0), ("res2", 0), ("lfanew", 0x80)].all fun (n, v) =>
  field dosHeaderExt ((stubX86.drop 28).take 36) n = some v
#guard (sum16 stubX86).map (~~~ ·) = some 0

-- `verify_types`, pecoff.rs
#guard reprC 1 peHeader = ⟨20, 4⟩
#guard reprC 1 (peOptional .pe) = ⟨28, 4⟩ && reprC 1 (peOptional .pe32p) = ⟨24, 4⟩
#guard reprC 1 (peOptionalExt .pe) = ⟨68, 4⟩ && reprC 1 (peOptionalExt .pe32p) = ⟨88, 8⟩

-- `typeinfo`, elf.rs (on x86 and on 64-bit machines)
#guard reprC 1 elfIdent = ⟨16, 1⟩
#guard [(⟨2, 4, 4⟩ : Target), ⟨2, 4, 8⟩].all fun t =>
  let lay := fun c fs => reprC (elfAlign c) fs
  lay .elf32 (elfEhdr t .elf32) = ⟨52, 4⟩ && lay .elf32 (elfShdr t .elf32) = ⟨40, 4⟩ && lay .elf32 (elfPhdr t .elf32) = ⟨32, 4⟩
    && lay .elf32 (elfSym t .elf32) = ⟨16, 4⟩ && lay .elf32 (elfDyn t .elf32) = ⟨8, 4⟩ && lay .elf32 (elfRel t .elf32) = ⟨8, 4⟩
    && lay .elf32 (elfRela t .elf32) = ⟨12, 4⟩
    && lay .elf64 (elfEhdr t .elf64) = ⟨64, 8⟩ && lay .elf64 (elfShdr t .elf64) = ⟨64, 8⟩ && lay .elf64 (elfPhdr t .elf64) = ⟨56, 8⟩
    && lay .elf64 (elfSym t .elf64) = ⟨24, 8⟩ && lay .elf64 (elfDyn t .elf64) = ⟨16, 8⟩ && lay .elf64 (elfRel t .elf64) = ⟨16, 8⟩
    && lay .elf64 (elfRela t .elf64) = ⟨24, 8⟩

section Stream
open Io

def grow : Alloc := ⟨fun v n => max v.cap (v.len + n), fun v _ => v.mem, fun _ _ => by constructor <;> omega, fun _ _ _ _ => by omega⟩

/-- `write_basic`, stream.rs. -/
def writeBasic : Option (Nat × List (Option UInt8) × List (Option UInt8) × Nat × List (Option UInt8)) := do
  let v : RawVec := ⟨0, 0, fun _ => none⟩
  let (v, _) ← v.smap grow 0 none
  let (v, n) ← v.smap grow 128 none
  let v := { v with mem := touch v.mem v.len n (fun i => if i < n then some (some (UInt8.ofNat i)) else none) }
  let (v, a) ← v.sunchecked grow 16
  let v ← v.commit 16
  let (v, b) ← v.sunchecked grow 16
  let v ← v.swrite grow ((List.range 16).map UInt8.ofNat)
  some (n, a, b, v.len, (List.range v.len).map v.mem)

#guard match writeBasic with
  | some (n, a, b, len, all) =>
    n ≥ 128 && a = (List.range 16).map (fun i => some (UInt8.ofNat i)) && b = (List.range 16).map (fun i => some (UInt8.ofNat (i + 16)))
      && len = 32 && all = (List.range 32).map (fun i => some (UInt8.ofNat (i % 16)))
  | none => false

end Stream

end Verif.Tests
