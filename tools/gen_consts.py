#!/usr/bin/env python3
"""Transcribes the constants of elf.rs, pecoff.rs, msdosmz.rs and errno.rs into lean/Verif/Bin/ModelConsts.lean (one definition per constant,
with its line), and the values published in the C headers of the system into lean/Verif/Bin/SpecConsts.lean. Run once; the results are committed."""
import re, os
root = os.path.join(os.path.dirname(os.path.abspath(__file__)), "..", "lean", "Verif", "Bin")
REPO = "/repo/lib/"
def consts(path, indent):
    out = []
    for i, l in enumerate(open(REPO + path), 1):
        m = re.match(indent + r"pub const (\w+): ([\w:]+) = ([^;\[]+);", l)
        if m: out.append((m.group(1), m.group(2), m.group(3).strip(), i))
    return out
def lean_val(v):
    m = re.match(r"b'(.)'$", v)
    if m: return str(ord(m.group(1)))
    m = re.match(r"abi::num\((\w+)\)$", v)
    if m: v = m.group(1)
    return v
elf = consts("sys/src/ffi/elf.rs", r"    ")
pe = consts("tmp/src/pecoff.rs", r"")
mz = [c for c in consts("tmp/src/msdosmz.rs", r"") if c[1] == "usize"]
en = consts("sys/src/ffi/linux/common/errno.rs", r"")
lc = consts("sys/src/ffi/linux/libc/errno.rs", r"")
def q(n): return n
def block(ns, cs):
    s = f"namespace {ns}\n"
    for n, t, v, i in cs:
        s += f"/-- line {i}, `{t}` -/ def {n} : Nat := {lean_val(v)}\n"
    return s + f"end {ns}\n"
m = '''/-! # Constants of file formats and system interfaces

Written by `tools/gen_consts.py` from the sources, one definition per constant, with its line and type. A constant that is given as another one
is given so here as well. The compiler rejects constants that do not fit their type. -/
namespace Verif.Bin.Consts

/-! ## `lib/sys/src/ffi/elf.rs`, module `common` -/
'''
m += block("Elf", elf) + "\n/-! ## `lib/tmp/src/pecoff.rs` -/\n" + block("Pe", pe)
m += "\n/-! ## `lib/tmp/src/msdosmz.rs` -/\n" + block("Mz", mz)
m += "\n/-! ## `lib/sys/src/ffi/linux/common/errno.rs`: the arguments of `abi::num` -/\n" + block("Errno", en)
m += "\n/-- `errno.rs`, all constants with their names, in order. -/\ndef errnoTable : List (String × Nat) := [\n"
m += ",\n".join(f'  ("{n}", Errno.{n})' for n, *_ in en) + "]\n"
m += "\n/-- `lib/sys/src/ffi/linux/libc/errno.rs`: each constant and the constant of `libc` it stands for. -/\ndef libcTable : List (String × String) := [\n"
m += ",\n".join('  ("%s", "%s")' % (n, re.match(r"libc::(\w+) as _$", v).group(1)) for n, t, v, i in lc) + "]\n"
def grp(name, cs, pre, ns): 
    global m
    m += f"\n/-- All constants `{pre}*`. -/\ndef {name} : List Nat := [\n  " + ", ".join(f"{ns}.{n}" for n, *_ in cs if n.startswith(pre)) + "]\n"
grp("elfMachines", elf, "EM_", "Elf")
grp("elfTypes", elf, "ET_", "Elf")
grp("peMachines", pe, "MACHINE_", "Pe")
grp("peSubsystems", pe, "SUBSYSTEM_", "Pe")
grp("peCharacteristics", pe, "CHARACTERISTIC_", "Pe")
grp("peDllCharacteristics", pe, "DLL_CHARACTERISTIC_", "Pe")
grp("elfDf1", elf, "DF_1_", "Elf")
m += "\nend Verif.Bin.Consts\n"
open(os.path.join(root, "ModelConsts.lean"), "w").write(m)

# --- published values
H = {}
for f in ["/usr/include/linux/elf-em.h", "/usr/include/elf.h"]:
    for l in open(f):
        x = re.match(r"#\s*define\s+(\w+)\s+(.*?)\s*(/\*.*)?$", l)
        if x: H[x.group(1)] = x.group(2)
def val(s):
    s = s.strip()
    while s.startswith("(") and s.endswith(")"): s = s[1:-1].strip()
    s = re.sub(r"\b(0x[0-9a-fA-F]+|\d+)[uUlL]+\b", r"\1", s)
    if re.match(r"^(0x[0-9a-fA-F]+|\d+)$", s): return int(s, 0)
    x = re.match(r"^1\s*<<\s*(\d+)$", s)
    if x: return 1 << int(x.group(1))
    x = re.match(r"^\(?(\w+)\s*\+\s*(0x[0-9a-fA-F]+|\d+)\)?$", s)
    if x and x.group(1) in H: return val(H[x.group(1)]) + int(x.group(2), 0)
    if s.startswith("'"): return ord(s[1])
    if s in H: return val(H[s])
    return None
# The generic ABI (and the Solaris documentation) differ from the header of the GNU C library here.
gabi = {"EM_ALPHA": 41, "SHT_HIUSER": 0xffffffff, "SHT_LOSUNW": 0x6fffffef}
bad = ["EM_TRIMEDIA", "EM_QDSP6", "EM_8051", "EM_STXP7X", "EM_NDS32"]
E = {}
for f in ["/usr/include/asm-generic/errno-base.h", "/usr/include/asm-generic/errno.h"]:
    for l in open(f):
        x = re.match(r"#\s*define\s+(E\w+)\s+(\w+)", l)
        if x: E[x.group(1)] = int(x.group(2)) if x.group(2).isdigit() else E[x.group(2)]
def rows(ps, ns): 
    return ",\n".join("  " + ", ".join(f"({ns}.{n}, {v})" for n, v in ps[i:i+4]) for i in range(0, len(ps), 4))
pub = [(n, gabi.get(n, val(H[n]))) for n, *_ in elf if n in H]
assert all(v is not None for n, v in pub), [n for n, v in pub if v is None]
PE = dict(zip([n for n, *_ in pe], [lean_val(v) for n, t, v, i in pe]))
pewrong = {"PE_MAGIC_OH32P": "0x020b", "SUBSYSTEM_EFI_APPLICATION": "10", "SUBSYSTEM_EFI_BOOT_SERVICE_DRIVER": "11", "SUBSYSTEM_EFI_RUNTIME_DRIVER": "12",
  "SUBSYSTEM_EFI_ROM": "13", "SUBSYSTEM_XBOX": "14", "SUBSYSTEM_WINDOWS_BOOT_APPLICATION": "16"}
exec(open(os.path.join(os.path.dirname(os.path.abspath(__file__)), "pe_published.py")).read())
assert set(PEPUB) == set(PE), set(PEPUB) ^ set(PE)
exec(open(os.path.join(os.path.dirname(os.path.abspath(__file__)), "elf_published.py")).read())
assert set(ELFMORE) <= {n for n, *_ in elf} - set(H), set(ELFMORE) - ({n for n, *_ in elf} - set(H))
print("ELF constants without a published value:", [n for n, *_ in elf if n not in H and n not in ELFMORE])
s = '''import Verif.Bin.ModelConsts
/-! # Published values of the constants

Written by `tools/gen_consts.py`. Each entry is a constant of the code and the number published for its name.

* Error codes: `asm-generic/errno-base.h` and `asm-generic/errno.h` of Linux.
* ELF: `elf.h` of the GNU C library, for the names that it defines; for `EM_ALPHA` and `SHT_HIUSER` the generic ABI, and for `SHT_LOSUNW` the
  Solaris documentation, from which the header differs. Most other names, in `elfMore`, are those of other documents, written down from memory in
  `tools/elf_published.py`, since no copy was at hand.
* PE and MS-DOS: the values of Microsoft's "PE Format" and of the DOS header, written down from memory in `tools/pe_published.py`, since no copy
  of the documents was at hand. -/
namespace Verif.Bin.Consts

'''
s += "/-- ELF, without the entries of `elfWrong`. -/\ndef elfPublished : List (Nat × Nat) := [\n" + rows([x for x in pub if x[0] not in bad], "Elf") + "]\n\n"
s += "/-- ELF, constants that differ. -/\ndef elfWrong : List (Nat × Nat) := [\n" + rows([x for x in pub if x[0] in bad], "Elf") + "]\n\n"
s += "/-- ELF, names which the header does not define. -/\ndef elfMore : List (Nat × Nat) := [\n" + rows(list(ELFMORE.items()), "Elf") + "]\n\n"
s += "/-- PE, without the entries of `peWrong`. -/\ndef pePublished : List (Nat × Nat) := [\n" + rows([(n, v) for n, v in PEPUB.items() if n not in pewrong], "Pe") + "]\n\n"
s += "/-- PE, constants that differ. -/\ndef peWrong : List (Nat × Nat) := [\n" + rows([(n, v) for n, v in PEPUB.items() if n in pewrong], "Pe") + "]\n\n"
s += "/-- MS-DOS: sizes of words, paragraphs and pages. -/\ndef mzPublished : List (Nat × Nat) := [(Mz.WORD_SIZE, 2), (Mz.PARAGRAPH_SIZE, 16), (Mz.PAGE_SIZE, 512)]\n\n"
s += "/-- Linux error codes, with the alias `EDEADLOCK` and `EWOULDBLOCK`. -/\ndef errnoPublished : List (String × Nat) := [\n" + ",\n".join("  " + ", ".join(f'("{n}", {E[n]})' for n in ch) for ch in [ [n for n, *_ in en][i:i+4] for i in range(0, len(en), 4)]) + "]\n\nend Verif.Bin.Consts\n"
assert set(E) - {"ENOTSUP"} == {n for n, *_ in en}, set(E) ^ {n for n, *_ in en}
open(os.path.join(root, "SpecConsts.lean"), "w").write(s)
print(len(elf), len(pub), len(pe), len(en), len(lc))
