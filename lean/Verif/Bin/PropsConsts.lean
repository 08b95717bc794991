import Verif.Bin.SpecConsts
import Verif.Ffi.PropsAbi
/-! # Property theorems: constants of file formats and system interfaces (C70) -/
namespace Verif.Bin.Consts
open Verif.Ffi Verif.Ffi.Abi
open Verif.Ffi.Abi (Target)

/-! ## Error codes -/

/-- **C70** (a). The error codes have the names and numbers of Linux; none is missing. -/
theorem errno_published : errnoTable = errnoPublished := by decide +kernel

/-- **C70** (b). Every error code is in the range of the kernel, and no two names other than the two documented aliases share a number. -/
theorem errno_distinct :
    (∀ e ∈ errnoTable, 1 ≤ e.2 ∧ e.2 ≤ 4095) ∧
    ((errnoTable.filter (fun e => e.1 ≠ "EWOULDBLOCK" ∧ e.1 ≠ "EDEADLOCK")).map (·.2)).Nodup ∧
    Errno.EWOULDBLOCK = Errno.EAGAIN ∧ Errno.EDEADLOCK = Errno.EDEADLK := by
  refine ⟨?_, ?_, rfl, rfl⟩ <;> decide +kernel

/-- **C70** (c). The `libc` platform has the same names, each standing for the constant of that name of the C library. -/
theorem errno_libc : libcTable.map (·.1) = errnoTable.map (·.1) ∧ ∀ e ∈ libcTable, e.1 = e.2 := by decide +kernel

/-- The type `U16` of each platform: aarch64, x86, x86_64, and the native one. -/
def u16s : List Ty := ([aarch64_sysv, x86_sysv, x86_64_sysv, nativeAbi].map (fun abi => abi.filterMap (fun x => if x.1 = "U16" then some x.2 else none))).flatten

/-- **C70** (d). On every host and for every platform, an error code can be made (`abi::num` does not fail), reads back as its number, and
lies in memory as two bytes: little-endian for the foreign platforms, in the order of the host for the native one. -/
theorem errno_everywhere (T : Verif.Ffi.Abi.Target) (t : Ty) (ht : t ∈ u16s) (e : String × Nat) (he : e ∈ errnoTable) :
    fromNative T t (store T.host 2 e.2) = some ((store (order T t) 2 e.2).map some) ∧
    toNative T t ((store (order T t) 2 e.2).map some) = some (store T.host 2 e.2) ∧
    order T t = (if t = .prim (u .w16) then T.host else .little) := by
  have hr := errno_distinct.1 e he
  have hlt : e.2 < 256 ^ 2 := by have := hr.2; omega
  have hu : u16s = [Le (u .w16) 2, Le (u .w16) 2, Le (u .w16) 2, .prim (u .w16)] := by decide +kernel
  rw [hu] at ht
  have hcases : t = Le (u .w16) 2 ∨ t = .prim (u .w16) := by
    simp only [List.mem_cons, List.not_mem_nil, or_false] at ht
    rcases ht with h | h | h | h
    · exact .inl h
    · exact .inl h
    · exact .inl h
    · exact .inr h
  have hal : Aligned t := by rcases hcases with rfl | rfl <;> simp [Aligned, Le]
  have hn : hasNative t = true := by rcases hcases with rfl | rfl <;> rfl
  have hb : (scalar t).bytes T = 2 := by rcases hcases with rfl | rfl <;> rfl
  have hz : (scalar t).nonzero = false := by rcases hcases with rfl | rfl <;> rfl
  have hs : size T t = 2 := by
    rcases hcases with rfl | rfl
    · simp [size, Le, lay, reprC_integer, roundUp, Prim.bytes, Width.bytes, u]
    · rfl
  have hord : order T t = (if t = .prim (u .w16) then T.host else .little) := by
    rcases hcases with rfl | rfl
    · rfl
    · rfl
  have hl := store_length (order T t) 2 e.2
  have hpad : pad T t (store (order T t) 2 e.2) = (store (order T t) 2 e.2).map some := by
    rw [pad, hl, hs]; simp
  have h1 := fromNative_eq T t hal hn e.2 (by rw [hb]; exact hlt) (by rw [hz]; intro h; cases h)
  rw [hb, hpad] at h1
  refine ⟨h1, ?_, hord⟩
  have hv := pad_valid T t hal (store (order T t) 2 e.2) (by rw [hl, hb]) (by rw [hz]; intro h; cases h)
  rw [hpad] at hv
  have h2 := toNative_store T t hal hn _ hv (store (order T t) 2 e.2) (by rw [hb, List.take_of_length_le (by simp [hl])]) (by rw [hl, hb])
  rw [hb, load_store _ _ _ hlt] at h2
  exact h2

example : ("ENOENT", 2) ∈ errnoTable ∧ Le (u .w16) 2 ∈ u16s := by decide +kernel
example : store .big 2 Errno.EHWPOISON = [0, 133] ∧ store .little 2 Errno.EHWPOISON = [133, 0] := by decide

/-! ## ELF -/

/-- **C70** (e). The constants that the C headers define have the published values, except for five machines. -/
theorem elf_published_partial : ∀ p ∈ elfPublished, p.1 = p.2 := by decide +kernel

/-- **C70** (e). Further constants, which are published elsewhere. -/
theorem elf_more : ∀ p ∈ elfMore, p.1 = p.2 := by decide +kernel

/-- **C70** (f). These five are wrong, and two machines share a number. -/
theorem elf_wrong : (∀ p ∈ elfWrong, p.1 ≠ p.2) ∧ Elf.EM_R32C = Elf.EM_TRIMEDIA := by
  constructor
  · decide +kernel
  · rfl

/-- **C70** (g). Apart from that pair, different machines have different numbers, up to the aliases that are written as such; so have the
types of files. -/
theorem elf_distinct_partial :
    (elfMachines.eraseDups).length + 6 = elfMachines.length ∧
    Elf.EM_486 = Elf.EM_IAMCU ∧ Elf.EM_MIPS_RS4_BE = Elf.EM_MIPS_RS3_LE ∧ Elf.EM_ALPHA_STD = Elf.EM_ALPHA ∧ Elf.EM_AMD64 = Elf.EM_X86_64 ∧
    Elf.EM_CYGNUS_FRV_INTERIM = Elf.EM_FRV_INTERIM ∧ Elf.EM_TRIMEDIA = Elf.EM_R32C ∧
    elfTypes.Nodup := by
  refine ⟨?_, rfl, rfl, rfl, rfl, rfl, rfl, ?_⟩ <;> decide +kernel

/-! ## PE -/

/-- **C70** (h). The constants have the published values, except for the magic number of PE32+ and six subsystems. -/
theorem pe_published_partial : (∀ p ∈ pePublished, p.1 = p.2) ∧ ∀ p ∈ mzPublished, p.1 = p.2 := by decide +kernel

/-- **C70** (i). These are wrong: PE32 and PE32+ cannot be told apart by their magic numbers. -/
theorem pe_wrong : (∀ p ∈ peWrong, p.1 ≠ p.2) ∧ Pe.PE_MAGIC_OH32P = Pe.PE_MAGIC_OH32 := by
  constructor
  · decide +kernel
  · rfl

/-- A flag: a single bit. -/
def OneBit (n : Nat) : Prop := ∃ k < 32, n = 2 ^ k

/-- **C70** (j). Machines, subsystems and flags of one field are distinct; flags are single bits, so that each can be set and tested without the
others. -/
theorem flags_distinct :
    peMachines.Nodup ∧ peSubsystems.Nodup ∧ peCharacteristics.Nodup ∧ peDllCharacteristics.Nodup ∧ elfDf1.Nodup ∧
    (∀ n ∈ peCharacteristics ++ peDllCharacteristics ++ elfDf1, OneBit n) := by
  unfold OneBit
  refine ⟨?_, ?_, ?_, ?_, ?_, ?_⟩ <;> decide +kernel

end Verif.Bin.Consts
