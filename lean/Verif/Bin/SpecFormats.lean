import Verif.Bin.ModelLayout
/-! # The published formats: name, offset and size of the fields of each structure -/
namespace Verif.Bin

/-- DOS header; 28 bytes. -/
def dosHeaderTable : List Placed := [⟨"magic", 0, 2⟩, ⟨"cblp", 2, 2⟩, ⟨"cp", 4, 2⟩, ⟨"crlc", 6, 2⟩, ⟨"cparhdr", 8, 2⟩, ⟨"minalloc", 10, 2⟩,
  ⟨"maxalloc", 12, 2⟩, ⟨"ss", 14, 2⟩, ⟨"sp", 16, 2⟩, ⟨"csum", 18, 2⟩, ⟨"ip", 20, 2⟩, ⟨"cs", 22, 2⟩, ⟨"lfarlc", 24, 2⟩, ⟨"ovno", 26, 2⟩]
/-- DOS header extension, relative to the start of the file, at which the header of 28 bytes is. -/
def dosHeaderExtTable : List Placed := [⟨"res", 28, 8⟩, ⟨"oemid", 36, 2⟩, ⟨"oeminfo", 38, 2⟩, ⟨"res2", 40, 20⟩, ⟨"lfanew", 60, 4⟩]
/-- DOS relocation; 4 bytes. -/
def dosRelocationTable : List Placed := [⟨"offset", 0, 2⟩, ⟨"segment", 2, 2⟩]

/-- COFF header; 20 bytes. -/
def peHeaderTable : List Placed := [⟨"machine", 0, 2⟩, ⟨"number_of_sections", 2, 2⟩, ⟨"time_date_stamp", 4, 4⟩, ⟨"pointer_to_symbol_table", 8, 4⟩,
  ⟨"number_of_symbols", 12, 4⟩, ⟨"size_of_optional_header", 16, 2⟩, ⟨"characteristics", 18, 2⟩]
/-- Optional header of PE32, standard fields and Windows-specific fields; 28 and 68 bytes. -/
def pe32Table : List Placed := [⟨"magic", 0, 2⟩, ⟨"major_linker_version", 2, 1⟩, ⟨"minor_linker_version", 3, 1⟩, ⟨"size_of_code", 4, 4⟩,
  ⟨"size_of_initialized_data", 8, 4⟩, ⟨"size_of_uninitialized_data", 12, 4⟩, ⟨"address_of_entry_point", 16, 4⟩, ⟨"base_of_code", 20, 4⟩,
  ⟨"base_of_data", 24, 4⟩]
def pe32ExtTable : List Placed := [⟨"image_base", 28, 4⟩, ⟨"section_alignment", 32, 4⟩, ⟨"file_alignment", 36, 4⟩,
  ⟨"major_operating_system_version", 40, 2⟩, ⟨"minor_operating_system_version", 42, 2⟩, ⟨"major_image_version", 44, 2⟩,
  ⟨"minor_image_version", 46, 2⟩, ⟨"major_subsystem_version", 48, 2⟩, ⟨"minor_subsystem_version", 50, 2⟩, ⟨"win32_version_value", 52, 4⟩,
  ⟨"size_of_image", 56, 4⟩, ⟨"size_of_headers", 60, 4⟩, ⟨"check_sum", 64, 4⟩, ⟨"subsystem", 68, 2⟩, ⟨"dll_characteristics", 70, 2⟩,
  ⟨"size_of_stack_reserve", 72, 4⟩, ⟨"size_of_stack_commit", 76, 4⟩, ⟨"size_of_heap_reserve", 80, 4⟩, ⟨"size_of_heap_commit", 84, 4⟩,
  ⟨"loader_flags", 88, 4⟩, ⟨"number_of_rva_and_sizes", 92, 4⟩]
/-- Optional header of PE32+; 24 and 88 bytes. There is no base of data. -/
def pe32pTable : List Placed := [⟨"magic", 0, 2⟩, ⟨"major_linker_version", 2, 1⟩, ⟨"minor_linker_version", 3, 1⟩, ⟨"size_of_code", 4, 4⟩,
  ⟨"size_of_initialized_data", 8, 4⟩, ⟨"size_of_uninitialized_data", 12, 4⟩, ⟨"address_of_entry_point", 16, 4⟩, ⟨"base_of_code", 20, 4⟩]
def pe32pExtTable : List Placed := [⟨"image_base", 24, 8⟩, ⟨"section_alignment", 32, 4⟩, ⟨"file_alignment", 36, 4⟩,
  ⟨"major_operating_system_version", 40, 2⟩, ⟨"minor_operating_system_version", 42, 2⟩, ⟨"major_image_version", 44, 2⟩,
  ⟨"minor_image_version", 46, 2⟩, ⟨"major_subsystem_version", 48, 2⟩, ⟨"minor_subsystem_version", 50, 2⟩, ⟨"win32_version_value", 52, 4⟩,
  ⟨"size_of_image", 56, 4⟩, ⟨"size_of_headers", 60, 4⟩, ⟨"check_sum", 64, 4⟩, ⟨"subsystem", 68, 2⟩, ⟨"dll_characteristics", 70, 2⟩,
  ⟨"size_of_stack_reserve", 72, 8⟩, ⟨"size_of_stack_commit", 80, 8⟩, ⟨"size_of_heap_reserve", 88, 8⟩, ⟨"size_of_heap_commit", 96, 8⟩,
  ⟨"loader_flags", 104, 4⟩, ⟨"number_of_rva_and_sizes", 108, 4⟩]
/-- Data directory; 8 bytes. -/
def peDataDirectoryTable : List Placed := [⟨"virtual_address", 0, 4⟩, ⟨"size", 4, 4⟩]
/-- Section header; 40 bytes. -/
def peSectionTable : List Placed := [⟨"name", 0, 8⟩, ⟨"virtual_size", 8, 4⟩, ⟨"virtual_address", 12, 4⟩, ⟨"size_of_raw_data", 16, 4⟩,
  ⟨"pointer_to_raw_data", 20, 4⟩, ⟨"pointer_to_relocations", 24, 4⟩, ⟨"pointer_to_linenumbers", 28, 4⟩, ⟨"number_of_relocations", 32, 2⟩,
  ⟨"number_of_linenumbers", 34, 2⟩, ⟨"characteristics", 36, 4⟩]

/-- ELF identification; 16 bytes. -/
def elfIdentTable : List Placed := [⟨"i_magic", 0, 4⟩, ⟨"i_class", 4, 1⟩, ⟨"i_data", 5, 1⟩, ⟨"i_version", 6, 1⟩, ⟨"i_osabi", 7, 1⟩,
  ⟨"i_abiversion", 8, 1⟩, ⟨"i_pad", 9, 7⟩]
/-- ELF header; 52 and 64 bytes. -/
def elfEhdrTable : Class → List Placed
  | .elf32 => [⟨"e_ident", 0, 16⟩, ⟨"e_type", 16, 2⟩, ⟨"e_machine", 18, 2⟩, ⟨"e_version", 20, 4⟩, ⟨"e_entry", 24, 4⟩, ⟨"e_phoff", 28, 4⟩,
      ⟨"e_shoff", 32, 4⟩, ⟨"e_flags", 36, 4⟩, ⟨"e_ehsize", 40, 2⟩, ⟨"e_phentsize", 42, 2⟩, ⟨"e_phnum", 44, 2⟩, ⟨"e_shentsize", 46, 2⟩,
      ⟨"e_shnum", 48, 2⟩, ⟨"e_shstrndx", 50, 2⟩]
  | .elf64 => [⟨"e_ident", 0, 16⟩, ⟨"e_type", 16, 2⟩, ⟨"e_machine", 18, 2⟩, ⟨"e_version", 20, 4⟩, ⟨"e_entry", 24, 8⟩, ⟨"e_phoff", 32, 8⟩,
      ⟨"e_shoff", 40, 8⟩, ⟨"e_flags", 48, 4⟩, ⟨"e_ehsize", 52, 2⟩, ⟨"e_phentsize", 54, 2⟩, ⟨"e_phnum", 56, 2⟩, ⟨"e_shentsize", 58, 2⟩,
      ⟨"e_shnum", 60, 2⟩, ⟨"e_shstrndx", 62, 2⟩]
/-- Section header; 40 and 64 bytes. -/
def elfShdrTable : Class → List Placed
  | .elf32 => [⟨"sh_name", 0, 4⟩, ⟨"sh_type", 4, 4⟩, ⟨"sh_flags", 8, 4⟩, ⟨"sh_addr", 12, 4⟩, ⟨"sh_offset", 16, 4⟩, ⟨"sh_size", 20, 4⟩,
      ⟨"sh_link", 24, 4⟩, ⟨"sh_info", 28, 4⟩, ⟨"sh_addralign", 32, 4⟩, ⟨"sh_entsize", 36, 4⟩]
  | .elf64 => [⟨"sh_name", 0, 4⟩, ⟨"sh_type", 4, 4⟩, ⟨"sh_flags", 8, 8⟩, ⟨"sh_addr", 16, 8⟩, ⟨"sh_offset", 24, 8⟩, ⟨"sh_size", 32, 8⟩,
      ⟨"sh_link", 40, 4⟩, ⟨"sh_info", 44, 4⟩, ⟨"sh_addralign", 48, 8⟩, ⟨"sh_entsize", 56, 8⟩]
/-- Program header; 32 and 56 bytes. -/
def elfPhdrTable : Class → List Placed
  | .elf32 => [⟨"p_type", 0, 4⟩, ⟨"p_offset", 4, 4⟩, ⟨"p_vaddr", 8, 4⟩, ⟨"p_paddr", 12, 4⟩, ⟨"p_filesz", 16, 4⟩, ⟨"p_memsz", 20, 4⟩,
      ⟨"p_flags", 24, 4⟩, ⟨"p_align", 28, 4⟩]
  | .elf64 => [⟨"p_type", 0, 4⟩, ⟨"p_flags", 4, 4⟩, ⟨"p_offset", 8, 8⟩, ⟨"p_vaddr", 16, 8⟩, ⟨"p_paddr", 24, 8⟩, ⟨"p_filesz", 32, 8⟩,
      ⟨"p_memsz", 40, 8⟩, ⟨"p_align", 48, 8⟩]
/-- Symbol; 16 and 24 bytes. -/
def elfSymTable : Class → List Placed
  | .elf32 => [⟨"st_name", 0, 4⟩, ⟨"st_value", 4, 4⟩, ⟨"st_size", 8, 4⟩, ⟨"st_info", 12, 1⟩, ⟨"st_other", 13, 1⟩, ⟨"st_shndx", 14, 2⟩]
  | .elf64 => [⟨"st_name", 0, 4⟩, ⟨"st_info", 4, 1⟩, ⟨"st_other", 5, 1⟩, ⟨"st_shndx", 6, 2⟩, ⟨"st_value", 8, 8⟩, ⟨"st_size", 16, 8⟩]
/-- Dynamic section entry; 8 and 16 bytes. -/
def elfDynTable : Class → List Placed
  | .elf32 => [⟨"d_tag", 0, 4⟩, ⟨"d_val", 4, 4⟩]
  | .elf64 => [⟨"d_tag", 0, 8⟩, ⟨"d_val", 8, 8⟩]
/-- Relocation; 8 and 16 bytes. -/
def elfRelTable : Class → List Placed
  | .elf32 => [⟨"r_offset", 0, 4⟩, ⟨"r_info", 4, 4⟩]
  | .elf64 => [⟨"r_offset", 0, 8⟩, ⟨"r_info", 8, 8⟩]
/-- Relocation with addend; 12 and 24 bytes. -/
def elfRelaTable : Class → List Placed
  | .elf32 => [⟨"r_offset", 0, 4⟩, ⟨"r_info", 4, 4⟩, ⟨"r_addend", 8, 4⟩]
  | .elf64 => [⟨"r_offset", 0, 8⟩, ⟨"r_info", 8, 8⟩, ⟨"r_addend", 16, 8⟩]

/-- Primitive integers are aligned to some divisor of their size. -/
structure Target.Sane (t : Target) : Prop where
  h16 : t.a16 ∣ 2
  h32 : t.a32 ∣ 4
  h64 : t.a64 ∣ 8

/-- The fields of a structure which are not empty, shifted. -/
def offsets (base : Nat) (fs : Fields) : List Placed :=
  ((place 0 fs).1.filter (·.size ≠ 0)).map fun p => { p with off := base + p.off }

/-- Fields follow each other without a gap, from some offset to some end. -/
def Gapless : Nat → Nat → List Placed → Prop
  | c, e, [] => c = e
  | c, e, p :: ps => p.off = c ∧ Gapless (c + p.size) e ps

instance instDecidableGapless : ∀ (c e : Nat) (ps : List Placed), Decidable (Gapless c e ps)
  | c, e, [] => inferInstanceAs (Decidable (c = e))
  | c, e, p :: ps =>
    have := instDecidableGapless (c + p.size) e ps
    inferInstanceAs (Decidable (p.off = c ∧ Gapless (c + p.size) e ps))

/-- The number in a little-endian field. -/
def number (b : List UInt8) : Nat := b.foldr (fun x n => x.toNat + 256 * n) 0

/-- Bytes of a file, at an offset. -/
def slice (data : List UInt8) (off len : Nat) : List UInt8 := (data.drop off).take len

end Verif.Bin
