/-! # Model of `#[repr(C)]` layouts, and of the structures of file formats

`lib/tmp/src/msdosmz.rs`, `lib/tmp/src/pecoff.rs`, `lib/sys/src/ffi/elf.rs`, `lib/osi/src/ffi/integer.rs` -/
namespace Verif.Bin

/-- Size and alignment of a type. -/
structure Lay where
  size : Nat
  align : Nat
deriving DecidableEq, Repr

/-- A structure: the fields in the order of their declaration. -/
abbrev Fields := List (String × Lay)

/-- The next multiple of an alignment. -/
def roundUp (n a : Nat) : Nat := (n + a - 1) / a * a

/-- A field of a structure in memory. -/
structure Placed where
  name : String
  off : Nat
  size : Nat
deriving DecidableEq, Repr

/-- `#[repr(C)]`: fields are placed in order, each at the next offset that fits its alignment. The offsets, and the end of the last
field. -/
def place : Nat → Fields → List Placed × Nat
  | c, [] => ([], c)
  | c, (n, l) :: fs =>
    let o := roundUp c l.align
    let r := place (o + l.size) fs
    (⟨n, o, l.size⟩ :: r.1, r.2)

/-- The alignment of a structure is the largest one of its fields, or the one asked for with `align(n)`. -/
def alignOf (attr : Nat) (fs : Fields) : Nat := fs.foldr (fun f a => max f.2.align a) attr

/-- `#[repr(C)]` or `#[repr(C, align(attr))]`: the size is a multiple of the alignment. -/
def reprC (attr : Nat) (fs : Fields) : Lay := ⟨roundUp (place 0 fs).2 (alignOf attr fs), alignOf attr fs⟩

/-- `[u8; n]`. -/
def bytes (n : Nat) : Lay := ⟨n, 1⟩

/-- `osi::ffi::Integer<Value, AlignAs<align>>`, integer.rs 29-33: a packed value (`osi::ffi::Packed`, packed.rs 13-14, has the alignment
1), and an array without elements that has the alignment. -/
def integer (size align : Nat) : Lay := reprC 1 [("value", ⟨size, 1⟩), ("alignment", ⟨0, align⟩)]

/-- msdosmz.rs 116-117 and pecoff.rs 20-23. -/
def u8le : Lay := integer 1 1
def u16le : Lay := integer 2 2
def u32le : Lay := integer 4 4
def u64le : Lay := integer 8 8

/-! ## DOS -/

/-- `Header`, msdosmz.rs 179-326. -/
def dosHeader : Fields := [("magic", bytes 2), ("cblp", u16le), ("cp", u16le), ("crlc", u16le), ("cparhdr", u16le),
  ("minalloc", u16le), ("maxalloc", u16le), ("ss", u16le), ("sp", u16le), ("csum", u16le), ("ip", u16le), ("cs", u16le),
  ("lfarlc", u16le), ("ovno", u16le)]
/-- `HeaderExt`, msdosmz.rs 342-369. -/
def dosHeaderExt : Fields := [("res", bytes 8), ("oemid", u16le), ("oeminfo", u16le), ("res2", bytes 20), ("lfanew", u32le)]
/-- `Relocation`, msdosmz.rs 380-387. -/
def dosRelocation : Fields := [("offset", u16le), ("segment", u16le)]

/-! ## PE -/

/-- `Header`, pecoff.rs 163-172. -/
def peHeader : Fields := [("machine", u16le), ("number_of_sections", u16le), ("time_date_stamp", u32le), ("pointer_to_symbol_table", u32le),
  ("number_of_symbols", u32le), ("size_of_optional_header", u16le), ("characteristics", u16le)]
/-- `format::Type`, pecoff.rs 245-264: `AddressSpace` and `BaseOfData`. -/
inductive PeFormat | pe | pe32p
deriving DecidableEq, Repr
def addressSpace : PeFormat → Lay
  | .pe => u32le
  | .pe32p => u64le
/-- `()` for PE32+. -/
def baseOfData : PeFormat → Lay
  | .pe => u32le
  | .pe32p => ⟨0, 1⟩
/-- `OptionalHeader`, pecoff.rs 174-185. -/
def peOptional (f : PeFormat) : Fields := [("magic", u16le), ("major_linker_version", u8le), ("minor_linker_version", u8le),
  ("size_of_code", u32le), ("size_of_initialized_data", u32le), ("size_of_uninitialized_data", u32le), ("address_of_entry_point", u32le),
  ("base_of_code", u32le), ("base_of_data", baseOfData f)]
/-- `OptionalHeaderExt`, pecoff.rs 189-212. -/
def peOptionalExt (f : PeFormat) : Fields := [("image_base", addressSpace f), ("section_alignment", u32le), ("file_alignment", u32le),
  ("major_operating_system_version", u16le), ("minor_operating_system_version", u16le), ("major_image_version", u16le),
  ("minor_image_version", u16le), ("major_subsystem_version", u16le), ("minor_subsystem_version", u16le), ("win32_version_value", u32le),
  ("size_of_image", u32le), ("size_of_headers", u32le), ("check_sum", u32le), ("subsystem", u16le), ("dll_characteristics", u16le),
  ("size_of_stack_reserve", addressSpace f), ("size_of_stack_commit", addressSpace f), ("size_of_heap_reserve", addressSpace f),
  ("size_of_heap_commit", addressSpace f), ("loader_flags", u32le), ("number_of_rva_and_sizes", u32le)]
/-- `DataDirectory`, pecoff.rs 216-220. -/
def peDataDirectory : Fields := [("virtual_address", u32le), ("size", u32le)]
/-- `SectionHeader`, pecoff.rs 222-234. -/
def peSection : Fields := [("name", bytes 8), ("virtual_size", u32le), ("virtual_address", u32le), ("size_of_raw_data", u32le),
  ("pointer_to_raw_data", u32le), ("pointer_to_relocations", u32le), ("pointer_to_linenumbers", u32le), ("number_of_relocations", u16le),
  ("number_of_linenumbers", u16le), ("characteristics", u32le)]

/-! ## ELF -/

/-- Alignments of the primitive integers `u16`, `u32` and `u64` of a target. -/
structure Target where
  a16 : Nat
  a32 : Nat
  a64 : Nat

/-- `Ident`, elf.rs 659-667. -/
def elfIdent : Fields := [("i_magic", bytes 4), ("i_class", bytes 1), ("i_data", bytes 1), ("i_version", bytes 1), ("i_osabi", bytes 1),
  ("i_abiversion", bytes 1), ("i_pad", bytes 7)]

inductive Class | elf32 | elf64
deriving DecidableEq, Repr

section
variable (t : Target) (c : Class)
def u16 : Lay := ⟨2, t.a16⟩
def u32 : Lay := ⟨4, t.a32⟩
def u64 : Lay := ⟨8, t.a64⟩
/-- `$usize` and `$isize`, elf.rs 790-793 and 830-833. -/
def word : Lay :=
  match c with
  | .elf32 => u32 t
  | .elf64 => u64 t
/-- `$align`. -/
def elfAlign : Nat :=
  match c with
  | .elf32 => 4
  | .elf64 => 8
/-- `Ehdr`, elf.rs 685-701. -/
def elfEhdr : Fields := [("e_ident", reprC 1 elfIdent), ("e_type", u16 t), ("e_machine", u16 t), ("e_version", u32 t), ("e_entry", word t c),
  ("e_phoff", word t c), ("e_shoff", word t c), ("e_flags", u32 t), ("e_ehsize", u16 t), ("e_phentsize", u16 t), ("e_phnum", u16 t),
  ("e_shentsize", u16 t), ("e_shnum", u16 t), ("e_shstrndx", u16 t)]
/-- `Shdr`, elf.rs 709-721. -/
def elfShdr : Fields := [("sh_name", u32 t), ("sh_type", u32 t), ("sh_flags", word t c), ("sh_addr", word t c), ("sh_offset", word t c),
  ("sh_size", word t c), ("sh_link", u32 t), ("sh_info", u32 t), ("sh_addralign", word t c), ("sh_entsize", word t c)]
/-- `Phdr`, elf.rs 799-809 and 839-849. -/
def elfPhdr : Fields :=
  match c with
  | .elf32 => [("p_type", u32 t), ("p_offset", u32 t), ("p_vaddr", u32 t), ("p_paddr", u32 t), ("p_filesz", u32 t), ("p_memsz", u32 t),
      ("p_flags", u32 t), ("p_align", u32 t)]
  | .elf64 => [("p_type", u32 t), ("p_flags", u32 t), ("p_offset", u64 t), ("p_vaddr", u64 t), ("p_paddr", u64 t), ("p_filesz", u64 t),
      ("p_memsz", u64 t), ("p_align", u64 t)]
/-- `Sym`, elf.rs 813-821 and 853-861. -/
def elfSym : Fields :=
  match c with
  | .elf32 => [("st_name", u32 t), ("st_value", u32 t), ("st_size", u32 t), ("st_info", bytes 1), ("st_other", bytes 1), ("st_shndx", u16 t)]
  | .elf64 => [("st_name", u32 t), ("st_info", bytes 1), ("st_other", bytes 1), ("st_shndx", u16 t), ("st_value", u64 t), ("st_size", u64 t)]
/-- `Dyn`, elf.rs 755-759. -/
def elfDyn : Fields := [("d_tag", word t c), ("d_val", word t c)]
/-- `Rel`, elf.rs 766-770. -/
def elfRel : Fields := [("r_offset", word t c), ("r_info", word t c)]
/-- `Rela`, elf.rs 777-782. -/
def elfRela : Fields := [("r_offset", word t c), ("r_info", word t c), ("r_addend", word t c)]
end

/-! ## Values -/

/-- A structure in memory, given the bytes of its fields; padding is not initialised. -/
def build : Nat → Fields → List (List UInt8) → List (Option UInt8)
  | c, (_, l) :: fs, v :: vs =>
    let o := roundUp c l.align
    List.replicate (o - c) none ++ v.map some ++ build (o + l.size) fs vs
  | _, _, _ => []

/-- A value of a structure: its memory. -/
def mkStruct (attr : Nat) (fs : Fields) (vs : List (List UInt8)) : List (Option UInt8) :=
  build 0 fs vs ++ List.replicate ((reprC attr fs).size - (place 0 fs).2) none

/-- Access to a field of a structure. -/
def getField (mem : List (Option UInt8)) (p : Placed) : List (Option UInt8) := (mem.drop p.off).take p.size

/-- `from_bytes`, msdosmz.rs 394-409, 430-440 and 462-472, for the array type `[u8; n]`; `none` if an assertion fails. -/
def fromBytes (fs : Fields) (n : Nat) (data : List UInt8) : Option (List (Option UInt8)) :=
  if (bytes n).align ≤ (reprC 1 fs).align ∧ (bytes n).size = (reprC 1 fs).size then some (data.map some) else none

/-- `as_bytes`, msdosmz.rs 415-422, 447-454 and 479-486; `none` if an assertion fails or a byte is not initialised. -/
def asBytes (fs : Fields) (n : Nat) (mem : List (Option UInt8)) : Option (List UInt8) :=
  if (bytes n).align ≤ (reprC 1 fs).align ∧ (bytes n).size = (reprC 1 fs).size then mem.mapM id else none

end Verif.Bin
