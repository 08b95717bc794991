import Verif.Ffi.SpecAbi
/-! # Model of the compile-time configuration

`cond!` of `lib/osi/src/cfg.rs`, and the aliases that depend on the platform: `target` of `lib/osi/src/ffi/abi.rs`, `target` and `native` of
`lib/sys/src/ffi/linux/mod.rs`, `elfn` of `lib/sys/src/ffi/elf.rs`, and the address types of `lib/osi/src/ffi/pointer.rs`. -/
namespace Verif.Cfg
open Verif.Ffi.Abi (PtrWidth Ty Width)

/-- The options set for a compilation: names, and names with a value. -/
abbrev Config := List (String × Option String)

/-- The predicates of `#[cfg(...)]`. -/
inductive Pred
  | name (n : String)
  | pair (k v : String)
  | all (ps : List Pred)
  | any (ps : List Pred)
  | not (p : Pred)

mutual
/-- Evaluation of a predicate, as the compiler does it. -/
def Pred.eval (cfg : Config) : Pred → Bool
  | .name n => cfg.contains (n, none)
  | .pair k v => cfg.contains (k, some v)
  | .all ps => Pred.evalAll cfg ps
  | .any ps => Pred.evalAny cfg ps
  | .not p => !p.eval cfg
def Pred.evalAll (cfg : Config) : List Pred → Bool
  | [] => true
  | p :: ps => p.eval cfg && Pred.evalAll cfg ps
def Pred.evalAny (cfg : Config) : List Pred → Bool
  | [] => false
  | p :: ps => p.eval cfg || Pred.evalAny cfg ps
end

/-- Text with a `#[cfg(...)]` in front. -/
abbrev Item (β : Type) := Pred × β

/-- What is left of a list of such texts: `#[cfg(...)]` keeps or removes the whole of what follows it. -/
def kept {β : Type} (cfg : Config) (items : List (Item β)) : List β :=
  (items.filter (fun x => x.1.eval cfg)).map (·.2)

/-- The rules `@internal`, cfg.rs 15-39. Simplification: a list of arms in place of their tokens; the limit of macro recursion is not modelled. -/
def internal {β : Type} (acc : List Pred) : List (Option Pred × β) → List (Item β)
  | [] => []
  | (cond, v) :: rem => (.all (cond.toList ++ [.not (.any acc)]), v) :: internal (acc ++ cond.toList) rem

/-- The rule for the user, cfg.rs 43-62. The grammar asks for at least one arm; nothing depends on it. -/
def cond {β : Type} (arms : List (Pred × β)) (els : Option β) : List (Item β) :=
  internal [] (arms.map (fun x => (some x.1, x.2)) ++ els.toList.map (fun v => (none, v)))

/-! ## Aliases -/

/-- What the compiler makes of the uses of an alias, given its definitions that are left and whether they name something that exists. -/
inductive Resolved (α : Type)
  /-- The alias does not exist. -/
  | missing
  /-- The crate does not compile. -/
  | broken
  /-- The alias stands for this. -/
  | is (a : α)
deriving DecidableEq, Repr

/-- `pub use x as name`: an unresolved `x` and a second definition are errors. -/
def resolve {α : Type} : List (Option α) → Resolved α
  | [] => .missing
  | [some a] => .is a
  | [none] => .broken
  | _ :: _ :: _ => .broken

/-- The ABIs of abi.rs that exist: 104, 134, 164. -/
inductive Abi | aarch64_sysv | x86_sysv | x86_64_sysv
deriving DecidableEq, Repr

/-- Their types. -/
def Abi.types : Abi → List (String × Ty)
  | .aarch64_sysv => Verif.Ffi.Abi.aarch64_sysv
  | .x86_sysv => Verif.Ffi.Abi.x86_sysv
  | .x86_64_sysv => Verif.Ffi.Abi.x86_64_sysv

/-- `target`, abi.rs 190-220. There are no modules `x86_win` and `x86_64_win`. -/
def abiTargets : List (Item (Option Abi)) := [
  (.all [.pair "target_arch" "aarch64", .pair "target_family" "unix"], some .aarch64_sysv),
  (.all [.pair "target_arch" "x86", .pair "target_family" "unix"], some .x86_sysv),
  (.all [.pair "target_arch" "x86_64", .pair "target_family" "unix"], some .x86_64_sysv),
  (.all [.pair "target_arch" "x86", .pair "target_env" "msvc", .pair "target_family" "windows"], none),
  (.all [.pair "target_arch" "x86_64", .pair "target_env" "msvc", .pair "target_family" "windows"], none)]

/-- `osi::ffi::abi::target`. -/
def abiTarget (cfg : Config) : Resolved Abi := resolve (kept cfg abiTargets)

/-- The platform modules of linux/mod.rs. -/
inductive Linux | aarch64 | x86 | x86_64
deriving DecidableEq, Repr

/-- The invocations of `impl_platform!`, linux/mod.rs 128-147: module, condition, ABI. -/
def platforms : List (Linux × Pred × Abi) := [
  (.aarch64, .pair "target_arch" "aarch64", .aarch64_sysv),
  (.x86, .pair "target_arch" "x86", .x86_sysv),
  (.x86_64, .pair "target_arch" "x86_64", .x86_64_sysv)]

/-- `target`, linux/mod.rs 102-103. -/
def linuxTarget (cfg : Config) : Resolved Linux := resolve (kept cfg (platforms.map (fun x => (x.2.1, some x.1))))

/-- `native`, linux/mod.rs 115-124: the platform module that is compiled again, with the native ABI. -/
def linuxNative (cfg : Config) : Resolved Linux := resolve (kept cfg (platforms.map (fun x => (x.2.1, some x.1))))

/-- `abi` of a platform module, linux/mod.rs 89. -/
def Linux.abi (l : Linux) : Option Abi := (platforms.find? (fun x => x.1 == l)).map (·.2.2)

/-- Whether the module `libc` exists, libc/mod.rs 18. -/
def hasLibc (cfg : Config) : Bool := (Pred.pair "feature" "libc").eval cfg

/-- `elfn`, elf.rs 870-873. -/
def elfn (cfg : Config) : Resolved Verif.Bin.Class :=
  resolve (kept cfg [(.pair "target_pointer_width" "32", some .elf32), (.pair "target_pointer_width" "64", some .elf64)])

/-- The integers that are addresses of the platform, pointer.rs 195-211, with `true` for `NonZero`. `none` is the `compile_error!` of 188-193. -/
def nativeAddresses (cfg : Config) : List (Option (Width × Bool)) :=
  kept cfg [
    (.not (.any [.pair "target_pointer_width" "16", .pair "target_pointer_width" "32", .pair "target_pointer_width" "64"]), none),
    (.all [], some (.size, false)),
    (.all [], some (.size, true)),
    (.pair "target_pointer_width" "16", some (.w16, false)),
    (.pair "target_pointer_width" "16", some (.w16, true)),
    (.pair "target_pointer_width" "32", some (.w32, false)),
    (.pair "target_pointer_width" "32", some (.w32, true)),
    (.pair "target_pointer_width" "64", some (.w64, false)),
    (.pair "target_pointer_width" "64", some (.w64, true))]

end Verif.Cfg
