import Verif.Cfg.ModelCfg
/-! # Specification of the compile-time configuration

A platform, the options that the compiler sets for it, and what it means that a set of types fits it. -/
namespace Verif.Cfg
open Verif.Ffi (Host)
open Verif.Ffi.Abi (PtrWidth Ty Target lay order nativeAbi scalar)

/-- A predicate holds in a configuration, as the reference of the language says it. -/
inductive Pred.Holds (cfg : Config) : Pred → Prop
  | name (n) : (n, none) ∈ cfg → Holds cfg (.name n)
  | pair (k v) : (k, some v) ∈ cfg → Holds cfg (.pair k v)
  | all (ps) : (∀ p ∈ ps, Holds cfg p) → Holds cfg (.all ps)
  | any (ps p) : p ∈ ps → Holds cfg p → Holds cfg (.any ps)
  | notName (n) : (n, none) ∉ cfg → Holds cfg (.not (.name n))
  | notPair (k v) : (k, some v) ∉ cfg → Holds cfg (.not (.pair k v))
  | notAll (ps p) : p ∈ ps → Holds cfg (.not p) → Holds cfg (.not (.all ps))
  | notAny (ps) : (∀ p ∈ ps, Holds cfg (.not p)) → Holds cfg (.not (.any ps))
  | notNot (p) : Holds cfg p → Holds cfg (.not (.not p))

/-- A platform to compile for, and the features that are asked for. -/
structure Platform where
  arch : String
  families : List String
  env : String
  target : Target
  features : List String

def widthText : PtrWidth → String
  | .w16 => "16"
  | .w32 => "32"
  | .w64 => "64"

def endianText : Host → String
  | .little => "little"
  | .big => "big"

/-- The options that the compiler sets for it. -/
def Platform.config (p : Platform) : Config :=
  [("target_arch", some p.arch), ("target_env", some p.env), ("target_endian", some (endianText p.target.host)),
    ("target_pointer_width", some (widthText p.target.ptr))] ++
  p.families.map (fun f => ("target_family", some f)) ++ p.features.map (fun f => ("feature", some f))

/-- Types fit a platform: all of them have the size and alignment of the native type of the same name, and its byte order. -/
def Fits (T : Target) (types : List (String × Ty)) : Prop :=
  types.map (fun x => (x.1, (lay T x.2).size, (lay T x.2).align, order T x.2)) =
    nativeAbi.map (fun x => (x.1, (lay T x.2).size, (lay T x.2).align, order T x.2))

/-- The architecture of an ABI and of a platform module. -/
def Abi.arch : Abi → String
  | .aarch64_sysv => "aarch64"
  | .x86_sysv => "x86"
  | .x86_64_sysv => "x86_64"

/-- A 64-bit platform with little-endian numbers that are aligned to their size. -/
def IsLp64 (T : Target) : Prop := T.host = .little ∧ T.ptr = .w64 ∧ ∀ n ∈ [1, 2, 4, 8, 16], T.alignOf n = n
/-- A 32-bit platform with little-endian numbers that are aligned as on Intel386. -/
def IsIntel386 (T : Target) : Prop :=
  T.host = .little ∧ T.ptr = .w32 ∧ (∀ n ∈ [1, 2, 4, 16], T.alignOf n = n) ∧ T.alignOf 8 = 4
/-- The platforms that the ABI was made for. -/
def Abi.MadeFor : Abi → Target → Prop
  | .aarch64_sysv, T | .x86_64_sysv, T => IsLp64 T
  | .x86_sysv, T => IsIntel386 T

/-- Platforms for which the compiler is known: the options that it prints for them. -/
def x86_64_linux : Platform := ⟨"x86_64", ["unix"], "gnu", Verif.Ffi.Abi.lp64, []⟩
def i686_linux : Platform := ⟨"x86", ["unix"], "gnu", Verif.Ffi.Abi.intel386, ["libc"]⟩
/-- `x86_64-unknown-linux-gnux32`: addresses of 32 bits, numbers aligned to their size. -/
def x86_64_x32 : Platform := ⟨"x86_64", ["unix"], "gnu", ⟨.little, .w32, id⟩, []⟩
/-- `aarch64_be-unknown-linux-gnu`: big-endian. -/
def aarch64_be : Platform := ⟨"aarch64", ["unix"], "gnu", ⟨.big, .w64, id⟩, []⟩
/-- `x86_64-pc-windows-msvc`. -/
def x86_64_msvc : Platform := ⟨"x86_64", ["windows"], "msvc", Verif.Ffi.Abi.lp64, []⟩
/-- `riscv64gc-unknown-linux-gnu`, with the feature `libc`. -/
def riscv64_libc : Platform := ⟨"riscv64", ["unix"], "gnu", Verif.Ffi.Abi.lp64, ["libc"]⟩
/-- `avr-unknown-gnu-atmega328`: addresses of 16 bits. -/
def avr : Platform := ⟨"avr", [], "gnu", ⟨.little, .w16, fun _ => 1⟩, []⟩

end Verif.Cfg
