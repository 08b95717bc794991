# Values of Microsoft's "PE Format", by the names the code uses; written down from memory, no copy of the document was at hand.
PEPUB = {}
def g(prefix, pairs):
    for line in pairs.split(";"):
        n, v = line.split()
        PEPUB[prefix + n] = v
g("", "PE_MAGIC_OH32 0x010b;PE_MAGIC_OH32P 0x020b;PE_OFFSET 0x3c")
g("CHARACTERISTIC_", "RELOCS_STRIPPED 0x0001;EXECUTABLE_IMAGE 0x0002;LINE_NUMS_STRIPPED 0x0004;LOCAL_SYMS_STRIPPED 0x0008;AGGRESSIVE_WS_TRIM 0x0010;LARGE_ADDRESS_AWARE 0x0020;BYTES_REVERSED_LO 0x0080;32BIT_MACHINE 0x0100;DEBUG_STRIPPED 0x0200;REMOVABLE_RUN_FROM_SWAP 0x0400;NET_RUN_FROM_SWAP 0x0800;SYSTEM 0x1000;DLL 0x2000;UP_SYSTEM_ONLY 0x4000;BYTES_REVERSED_HI 0x8000")
g("DATA_DIRECTORY_", "EXPORT_TABLE 0;IMPORT_TABLE 1;RESOURCE_TABLE 2;EXCEPTION_TABLE 3;CERTIFICATE_TABLE 4;BASE_RELOCATION_TABLE 5;DEBUG 6;ARCHITECTURE 7;GLOBAL_PTR 8;TLS_TABLE 9;LOAD_CONFIG_TABLE 10;BOUND_IMPORT 11;IAT 12;DELAY_IMPORT_DESCRIPTOR 13;CLR_RUNTIME_HEADER 14")
g("DLL_CHARACTERISTIC_", "HIGH_ENTROPY_VA 0x0020;DYNAMIC_BASE 0x0040;FORCE_INTEGRITY 0x0080;NX_COMPAT 0x0100;NO_ISOLATION 0x0200;NO_SEH 0x0400;NO_BIND 0x0800;APPCONTAINER 0x1000;WDM_DRIVER 0x2000;GUARD_CF 0x4000;TERMINAL_SERVER_AWARE 0x8000")
g("MACHINE_", "UNKNOWN 0x0;AM33 0x1d3;AMD64 0x8664;ARM 0x1c0;ARM64 0xaa64;ARMNT 0x1c4;EBC 0xebc;I386 0x14c;IA64 0x200;LOONGARCH32 0x6232;LOONGARCH64 0x6264;M32R 0x9041;MIPS16 0x266;MIPSFPU 0x366;MIPSFPU16 0x466;POWERPC 0x1f0;POWERPCFP 0x1f1;R4000 0x166;RISCV32 0x5032;RISCV64 0x5064;RISCV128 0x5128;SH3 0x1a2;SH3DSP 0x1a3;SH4 0x1a6;SH5 0x1a8;THUMB 0x1c2;WCEMIPSV2 0x169")
g("SECTION_CHARACTERISTIC_", "TYPE_NO_PAD 0x8;CNT_CODE 0x20;CNT_INITIALIZED_DATA 0x40;CNT_UNINITIALIZED_DATA 0x80;LNK_OTHER 0x100;LNK_INFO 0x200;LNK_REMOVE 0x800;LNK_COMDAT 0x1000;GPREL 0x8000;MEM_PURGEABLE 0x20000;MEM_16BIT 0x20000;MEM_LOCKED 0x40000;MEM_PRELOAD 0x80000;LNK_NRELOC_OVFL 0x1000000;MEM_DISCARDABLE 0x2000000;MEM_NOT_CACHED 0x4000000;MEM_NOT_PAGED 0x8000000;MEM_SHARED 0x10000000;MEM_EXECUTE 0x20000000;MEM_READ 0x40000000;MEM_WRITE 0x80000000")
for k in range(14):
    PEPUB["SECTION_CHARACTERISTIC_ALIGN_%dBYTES" % (1 << k)] = "0x%x" % ((k + 1) << 20)
g("SUBSYSTEM_", "UNKNOWN 0;NATIVE 1;WINDOWS_GUI 2;WINDOWS_CUI 3;OS2_CUI 5;POSIX_CUI 7;NATIVE_WINDOWS 8;WINDOWS_CE_GUI 9;EFI_APPLICATION 10;EFI_BOOT_SERVICE_DRIVER 11;EFI_RUNTIME_DRIVER 12;EFI_ROM 13;XBOX 14;WINDOWS_BOOT_APPLICATION 16")
